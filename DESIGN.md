# Formal model of adhoc_audio in Lean 4 — design

## Layout

* `lean/Verif/Model/*.lean` — the model, about one file per Rust source file (plus `Rust.lean` for the Rust conventions,
  `F32.lean` for IEEE binary32, `Bincode.lean` for the external serialiser, `Io.lean` for `io::Write`, `Reader.lean` for `io::Read` and `Disk.lean` for files and threads).
  Every definition cites file and lines.
* `lean/Verif/Spec/*.lean` — small independent specifications (lists, tapes, deques, recency lists, bit lists).
* `lean/Verif/Proofs/*.lean` — helper lemmas and invariants.
* `lean/Verif/Props/*.lean` — the property theorems `Cnn_...`, with non-vacuity `example`s beside them.
* `properties.jsonl`, `MANIFEST.json`, `AXIOMS.md`, `seeded/LOG.jsonl` — the list, the claims, the axioms of every theorem, the mutation log.
* `tools/` — scripts that write `properties.jsonl`, `MANIFEST.json`, `AXIOMS.md`, `lean/Verif.lean` and the table at the end of this file.

## Trusted base

* **The Lean 4.33.0 kernel.** Every theorem of the manifest rests on at most `propext`, `Classical.choice` and `Quot.sound`
  (`AXIOMS.md` lists them theorem by theorem). No axioms of our own, no `sorry`, no `native_decide`, no `bv_decide`; evaluations in
  counterexamples and examples use `decide +kernel` or `rfl`, which the kernel checks.
* **The reading of the source.** The code was never run here: the model is tied to it only by the citations on each definition.
* **The Rust semantics of `Model/Rust.lean` and `Model/F32.lean`**: wrapping or checked integer arithmetic depending on the build, saturating float to
  integer casts, f32 arithmetic rounded to nearest even without fused or extended-precision operations, `i16`/`u16` casts that keep the low bits.
* **Dependencies and the standard library**: the byte format of bincode 1.3 (`Model/Bincode.lean`), `Vec`, `VecDeque`, `HashMap` as a map, `Iterator::zip`, `io::Write::write_all`
  (`Model/Io.lean`), `io::Read::read_exact` and `read_to_end` (`Model/Reader.lean`), `Path::extension`, `file_stem`, `set_extension`, `push` (`Model/Cli.lean`), rayon as "each item is processed once, on some thread".
* **The platform**: little endian, 64-bit `usize` (32 bits in C131 and C132, with `Model/Usize.lean`); the `unsafe` views of byte vectors as `[i16]` are valid (C136 says when they are, C137 what other machines do, with `Model/Machine.lean`; other theorems about the WAV codec are about valid views).

## Modelling conventions

* **Panics are values.** A Rust function that can panic returns `R α := Except Panic α`. Slice indexing, integer division,
  `expect`/`unwrap`, `clamp` assertions, `unimplemented!` and explicit `panic!` all produce an error value.
* **Build profile.** Where an `i16`/`i32`/`u32` operation can overflow the definition takes `b : Build` (`debug`: overflow panics,
  `release`: wraps). Cursors of type `u128`/`usize` are unbounded `Nat` (they count bits and items in memory);
  explicit narrowing casts (`as u16`, `as u64`, `as i16`) are modelled literally, except that a cursor of type `u128` divided by the bits of a
  word is used as an index as it is (`as usize` would cut it off from 2^64 on, that is with a cursor of 2^71; loading a codec sets the cursor to 0 and stored positions have 64 bits, and below that C131_alike with 64 bits says that cutting off changes nothing).
  The counters `nibble_count` and `header_cursor` of type `u32` count frames and are unbounded too (except in C142): theorems about recordings are
  about fewer than 2^32 frames.
* **f32.** `F32 = nan | inf sign | fin q` with `q` a rational proved to be representable in binary32. Every operation computes the exact
  rational and rounds to nearest, ties to even, with subnormals and overflow to infinity. The sign of zero is not represented:
  nothing in the encoder or decoder observes it, which is not assumed but proved with a second model that has it (C145). `Proofs/Ieee` checks the model against the
  standard's description by bit patterns: `F32_fromBits` and `F32_onto` (the values are those of the patterns), `F32_nearest` and `F32_ties` (rounding takes the
  nearest, of two the one with the even pattern) and `F32_overflow` (exactly from 2^128 - 2^103 on).
* `&mut self` methods return the new structure; `Vec`, `VecDeque`, slices are `List`; `u128`, `u64`, `u8` blocks are `BitVec`.
* Loops are folds or recursion on an explicit fuel; where fuel is used a theorem shows that it cannot run out.
* `io::Write` is a script of answers (short writes, interruptions, errors); `io::Read + Seek` is the byte list of the resource, which C133 shows to be enough for scripted readers.
* Files (C69, C70) are a partial map from paths to bytes; threads interleave at every read and write of any size.

## Not modelled

What clap does with the command line (the option values are given), links between files, in C69 and C70 different spellings of one path (C148 has paths as written), power failures that lose or reorder written data,
`Vec` growth policy (a capacity is a parameter with `len <= cap`; only C138 has the doubling of the standard library), memory exhaustion, the sign of zero (except in C145),
the results of `exp` and `powf` (Rust does not specify them) and of `sqrt` (`gaussian_filter` and `compute_mse` take all three as parameters, so their theorems hold for any values; C88_bell_partial is about monotone ones), how `Display` of
`NoiseDistribution` prints the bounds of its lines, `StreamInfo::as_bytes` (its layout is unspecified), running time other than the rounds of loops (C139, C140).

## Main proof ideas

* **Bit stream (C28–C31, C74).** `Bits s = l` relates a stream to the list of bits before the cursor; writing appends, reading at a position whose bits
  continue with a code word gives the value (`Proofs/BitStream`, `Proofs/Rice`).
* **Frame codec (C01–C08, C12, C15, C16, C19, C20, C24).** The encoder invariant says that the stream is the concatenation of the frame codes, the header
  list is the log of frames and the histories hold the last codes (`Proofs/Encoder`); the decoder invariant runs over the same log
  (`Proofs/Decoder`, `Proofs/Codec`). What a signal out of sync decodes to is the function `again` of the codes, so that
  the round-trip theorems cover every signal. That sync is needed (`Props/Sync`) is shown at the first difference that does not fit, where both codes are in [-32767, 32767] and so sound different.
* **Floating point (C03, C04, C38, C39, C56, C57, C67, C68, C73).** Exact rational arithmetic with error bounds for each rounding (`Proofs/F32`, `Proofs/Float`, `Proofs/Sample`).
* **Panic-freedom and builds (C25–C27, C32, C63).** `Fine b x P` (does not panic and the result satisfies P), `Ens x P` (if it returns, P), `Same x y P` (two runs
  side by side) and `Ref x y` (the debug run is the release run or overflows) are composed along the `do` blocks of the model (`Proofs/Robust`, `Values`, `Alike`, `Refine`).
* **Files (C09–C11, C17, C18, C32–C37, C44, C45, C58–C66, C70).** Decoder-after-encoder and no-proper-prefix laws for each bincode type, composed over the records;
  byte-level description of the WAV header and of the search for `data`.
* **Containers (C46–C54, C62).** Refinement to lists, deques and recency lists, by induction over arbitrary call sequences.
* **Recording over a recording (C21, C89).** Two encoders run side by side, one on empty memory and one on old memory; the relation `Inked` says bit by bit how the
  memories differ (`Proofs/Over`).
* **Seeking out of sync (C90).** The decoder invariant is indexed by the row playing started with, so that it speaks about what a decoder makes of the differences from
  that row on (`Spec/Resync`, `Proofs/Resync`).
* **Settings (C91, C92).** Two codecs that differ in the stream info, or in the level, are run side by side (`Same`).
* **Cuts and channels (C93, C94).** `C93_mono_partial` and `C94_alone` compare two recordings through the codes stored (`playback`); for the
  number of bits, a frame is determined by its codes and those before it because the exponent picked is unique (`picked_unique`).
* **Converting again (C95).** C58 gives the second WAV file, whose samples have the codes of the first one's, and at level 0 the codec sees
  only the codes (C71).
* **Polarity (C96).** Every float operation of the model commutes with negation; the frames of the inverse are compared one by one
  (`frames_inverse`), and no parameter from 1 on distinguishes differences of 32766 and 32767.
* **Seeking, loading and recording (C97–C99).** Whether the first channel is playing is followed through every step (`FirstPlays`); recording into a loaded codec
  is the side-by-side run of C21 with the file as old memory.
* **Silence (C100).** The scaled noise is bounded by following the four roundings of the dither with small numbers; 32767 times it, divided by
  2^L twice, is below 9, 7, 4, 2, 1 at the levels 1 to 5. Codes that small are always in sync, so that what is stored is what is played.
* **Seeds (C101).** The generator is an affine map modulo the prime 507961 with the fixed point 455685; its factor has order 253980, half of
  the units, so that the other residues form two cycles. A sequence with period `P` has exactly the multiples of `P` as periods if for no prime
  `p` the quotient `P / p` is one, and this needs to be checked for one (uniform) or two (triangular) starting points in each cycle only.
* **Finite samples (C102).** `Tame` bounds a buffered sample. It holds for every decoded one, since the history keeps 16-bit values and
  `normalize_sample` is bounded on them; `TameAll` is kept by every read and seek, whatever the file, and a power of two scales exactly.
* **Out of range (C103).** A code depends only on the value limited to [-1, 1], so at level 0 C71 (only codes count) gives the clipped recording.
  Above, the noise is bounded as for C04, and numbers from `2^L + 1` on stay at least `2^L` through the rounded addition, also if it overflows.
* **Parabola (C104).** Each of the eight rounded operations adds at most 2^-24 of its result; halving and the powers of two are exact.
* **Example programs (C105).** The programs are the conversions of the command-line tool with other endings, so that C11, C44 and C73 apply.
* **Stale pointers (C106).** A free slot keeps no data and no left link, only the link to the next free slot; the ring lemmas give the rest.
* **iter_mut (C107).** The walk is that of `iter`; writing to an item changes no link, so the list holds the edited sequence.
* **Cache and ring buffer (C108).** The codes are put together as for C62; inserting the entries of a map without duplicates in any order gives it back.
* **Aliasing (C109).** The iterator indexes with a check before the unchecked access; the walk of a stale insertion (C106) repeats its first slot.
* **Overwriting numbers (C110).** `Proofs/Over` describes every bit after a write over any memory; the code that results is that of the number with the old bits set.
* **Accepted WAV files (C111).** A last odd byte is never seen; the calls of the tool are known (C58), so C25 says which of them panic.
* **Savings (C112).** Third differences of codes below M are below 8M; the bound on the length of a recording (C72) does the rest.
* **Causality (C113).** The first m decoded codes are a function of the first m codes; in sync (C19) the decoded code is the code.
* **Sample rate (C114).** Every function is run on two codecs that differ in the info alone (`Tagged`).
* **No channels (C115).** Every call is unfolded up to its first division.
* **Reading allocates only where writing already did (C116).** `Proofs/Room.lean` follows every function that moves the bit cursor, by
  inversion of a successful run: writing leaves two chunks from where its last number starts, and reading allocates only if two chunks
  are missing from where a number starts. Since the reader's numbers are the writer's, nothing is allocated. For made-up files only the
  unconditional half of the relation holds: zero chunks may be appended.
* **Positions beyond the memory (C117).** `allocate_if_needed` pushes one chunk at most, twice per call; the exact theorem is the case
  distinction this gives, and the calls theorem is the invariant "not beyond the chunk after the last" under every method.
* **Clearing (C118).** A relation between a stream and one with the same bits and cursor but more memory is kept by every call, except by
  `read_bit` at the end of the smaller memory.
* **Range of resampling (C119).** The weights `t` and `1 - t` as rounded add up to less than 1 + 2^-24, and no float lies between 1 and
  1 + 2^-23; so a mixture of numbers in [-1, 1] rounds into [-1, 1].
* **Convolution (C120).** `convolve_1d` is a fold per output sample; with one non-zero factor the fold is that term, since adding and
  multiplying zeros is exact.
* **Decompressing (C121).** `playback` says what decode calls deliver for any buffers; the tool's loop is such a sequence of calls with buffers
  of 1024 samples, each delivering at least one sample per channel until the end.
* **The file (C122).** The encoder's invariant also says that all bits behind the cursor are zero, how many chunks there are, and that flags not
  used are not set. Then each list of the file is determined by the frames, and these by the calls. A list of words whose bits are known is the
  packed form of these bits.
* **File sizes (C123).** The length of the file described for C122, with C112's bound on the bits of sound (for samples up to 32768/32767).
* **Indexing (C124).** The invariant of the ring buffer from C51 says where each item is; an assignment keeps it.
* **The unit tests (C125).** The loops of the tests on a stream with old contents: C110 for the Rice codes, and for 32-bit numbers the invariant that
  the first bit of each 128-bit word (where an unaligned number crosses into it) stays 0. The tests of the codec follow from C04 and C75.
* **Copying (C126).** The loop of the test keeps the tape picture of C44 for both codecs; which values slip is C38.
* **The player (C127).** `Verif/Spec/Player.lean` is a decoder on lists of bytes and bits. C122 says what is in the file; each table, Rice code and piece is
  read back by an induction over lists, and the result is the `played` signal of C06.
* **Files of other encoders (C128).** `Verif/Spec/Clip.lean` says what a piece is without an encoder. The invariants of the decoder (`Proofs/Decoder`) are
  repeated in `Proofs/Clip` for such pieces; the tables come out of the reader's acceptance (C81), so nothing is assumed about the file but what `Stores` says.
* **Gaps (C07, C128).** `Spec.serve` and `Spec.readGaps` give the counts of any calls from the sizes of the frames alone. `Steps` (`Props/Gaps`) is what the decoder of a
  recording and that of a file have in common, so both are done once. That C07 fails for every gap uses buffers of one block: then `At` says which frame the decoder is in.
* **The test re_encode (C129).** Its loops are those of the tool with one more step; `invertLoop_ok` is the induction of `decompressLoop_ok` with the
  symmetry of `truncate_sample` (C96), and the error is that of C73.
* **Seeking in any file (C130).** `Verif/Spec/Index.lean` takes the tables for seeking out of the bytes; a channel that seeks has the state of one that has just decoded
  the three codes of the history, so `decodeFrame_clip` of C128 applies and `last_extend` puts the earlier codes back (`Props/SeekAny`).
* **32-bit targets (C131, C132).** `Model/Usize.lean` repeats the functions that mention `usize` with a width. The relation `Abreast` says that two runs move the
  cursor forward and agree on results whose cursor is within reach; it is closed under `bind` (`Proofs/Usize`). The counterexample of C132 is a real recording, whose length is given by C72.
* **Readers (C133, C134).** `Model/Reader.lean` has both `load`s on a scripted reader. The relation `Reads` between what was read from a reader and from its content is closed under
  `bind`, so that it goes through the deserialiser field by field (`Proofs/Reader`); where the reader then stands is part of it.
* **Half a sample (C135).** The i16 view of the bytes ends before it, so every function of the codec but `save_to` and `write_sample` commutes with adding the byte.
* **Memory and byte order (C136, C137).** `Model/Machine.lean` has the WAV codec with the address of its bytes and the byte order as parameters; the view as a list of i16 is compared with the
  byte-wise reading of the other files.
* **Cost (C138-C140).** `Model/Cost.lean` has copies of the functions with loops in a monad that counts: each round of each loop of the Rust code is a tick, code without loops is free, and
  operations of the standard library on one element (push, pop, index) are free. `Costs` (`Proofs/Cost.lean`) relates a clocked function to the plain one: same result, same panic, bounded
  ticks. Decoding is amortised: a chunk of ones that is skipped is never read again. `Model/Alloc.lean` counts the blocks of the vectors that `encode` fills, with the growth of `Vec`.
* **Memory while playing (C141).** `Creep` (`Proofs/Growth.lean`) bounds what a read takes: bits up to the end of the data are free, behind it a number takes at most 17 bits, because a run of
  ones cannot go on there. The headers that are used up pay for it (`toll`), and rewinding gives back both.
* **32-bit counters (C142).** `Model/Counters.lean` has the functions that count with `u32`; everywhere else the counters are unbounded, which C142 justifies below 2^32 frames.
* **A seek forgets (C143).** `Kin` (`Proofs/Forget.lean`) relates two codecs of the same file whose streams differ in length by chunks of zeros and whose channels agree in what decoding looks at:
  the last three samples and the queue. `Sim q` says that two runs give related results, where without `q` one of them may panic alone.
* **Lists read from bytes (C144).** `Spec.Threaded` says by itself which stored links make a sequence; it asks nothing of the links to the left, the rear, the pool and the last link, so it is weaker
  than the invariant `IsSeq` of the lists made by calls (C52).
* **Two zeros (C145).** `Model/SignedZero` has a type `Z32` in which `+0.0` and `-0.0` differ, and the functions through which samples pass once more with it. `Z32.erase` forgets the sign. The proof is that
  `erase` is a homomorphism for every operation that is used (for a quotient: if the divisor is not `-0.0`, and no divisor in the code is), which gives equality with the model, plus an invariant for the signs of what
  is delivered. The scale of a codec is never zero; the buffers between calls never hold `-0.0` (`C145_buffered`), so the state of the codec is that of the model.
* **Lengths of 32 bits (C146).** `Model/List32` has `insert_at` with `len` as u32. Below 2^32 - 1 items it is the model of C52; a list of exactly so many is described by the invariant of C52 (all slots taken,
  no free one), and the next two insertions are computed from it step by step.
* **Ring buffers from bytes (C147).** `Model/Ring32` has the calls of queue.rs with sums of 32 bits and any fields. `ActsAs` says from outside what a bounded deque is: all sequences of calls return what the
  deque returns, and `iter` and `len` show its items. That the fields must be right is shown by calls that would tell: emptying from either end, filling after `clear` with equal items and one other.
* **Paths (C148, C149).** `Model/Paths` splits paths as written at the slashes and finds the last component from the back, as `std::path` does on Unix; `Spec.components` is the documented list of
  components from the front. `file_name` is shown to be the last component, `push` to add one and `set_extension` to change the last.
* **Calls of 65536 blocks and more (C150).** The recording is read as a row of pieces with the parameters and sizes of the headers laid on the bits from the front (`clipSt_init`), the reading of
  C128, so the theorems on foreign files apply to recordings whose sizes have wrapped.
* **Caches read from bytes (C151).** `WellMade` describes the slots one by one, without the invariant of C53; it is shown to be the same as that invariant.
* **Recording over a file (C152).** `HasRoom` compares the lengths of the lists of the file with the number of headers to be written; nothing else of the file matters for a panic.
* **Seeking in a file (C153).** `InFile` says when a time is in a file: it counts the samples of the complete rows, as the sizes of the first channel have them. The number of samples that a time amounts to is `seekOffset`, whose value has properties of its own.
* **Debug and release builds (C63, C154).** `Ref x y` says that `x` is `y` or an overflow. It is kept by binds, conditions and loops and holds for every checked operation, so it holds for every function of the model.
* **Incomplete blocks (C155).** The loops are run side by side (`Same`) with and without the rest; they never get to an index behind the whole blocks.
* **Far behind the end (C156).** The exact rule for files (C153) is used for recordings, where the rows of the frames are the blocks of the calls. The bound of `C156_when_partial` follows from the error bound of C14.
* **The codecs compared (C157).** WavCodec is shown to be the tape of blocks that AdhocCodec is (C12) as long as no seek reaches the end. That both go to the same block follows from the exact offsets (C14).
* **All calls of the WAV codec (C158).** The tape of C34 gets a head that is moved as C40 says; `deck` gives nothing if it is moved on an empty tape.
* **Cuts and seeks (C159).** Both recordings are the tape of C12 over the quantised signal, in which the cuts no longer appear.
* **Debug overflow (C26).** The cost of a frame is convex in the Rice parameter, so the encoder takes 15 exactly when 15 beats 14, which compares two counts of
  differences (`Proofs/Frame`).
* **Termination and bounds (C78–C80).** `Halts x P` (the round limits are not reached and, if it returns, P). For seeks the pruning loop counts modulo 2^64; a pigeonhole
  argument shows that it reaches its target. For playback a potential (`Left`) is carried through decode calls (`Proofs/Halts`, `Ends`, `Bounded`).
* **Canonical files (C81).** The converse law for each bincode decoder: what it accepts is what the encoder writes (`Proofs/Canonical`).
* **Dither noise (C82).** The closed form of the congruence gives the period; kernel-computed tallies over one period, packed into one number, give the
  shares, and the period carries them to every stretch of whole periods (`Proofs/NoiseCount`).
* **Options and names (C61, C83, C84).** Lists of characters; `parse::<u32>` is shown to accept exactly the decimal numbers below 2^32.
* **Containers (C46–C54, C62, C85).** Each container is related to a list, or to a memory that is never erased where `clear` leaves the old content (C47).
* **Analysis tools (C86–C88).** Direct computation in the float model, for every squaring and exponential function with the stated laws.
* **Threads and files (C69, C70).** Any interleaving of steps is shown to leave each output with the content a lone conversion would give, as long as the sets
  of files do not overlap.

A property that the code does not have is kept as stated; `Cnn_false` refutes it on a concrete case, and the `_partial` theorems say exactly what the code does instead.
Those cases are findings about the code and are summarised in the notes below.

## Results per property

| id | property | status | theorems | what is proved, what is not |
|---|---|---|---|---|
| C01 | Level-0 round trip | proved | C01_round_trip, C01_gaps | for every sequence of calls (first call at least 3 blocks, each below 65536), every buffer sequence and both builds. With nine empty calls in a row the samples are the same, but decode can return None early (C07); what every call returns then is C01_gaps |
| C02 | Level-0 round trip for every signal (as documented: 'level 0 is basically lossless') | partial | C02_false, C02_level0_partial, C02_exact_partial | false as stated: full-scale alternation loses sync. C02_level0_partial gives what every signal decodes to exactly; it is the quantised signal exactly if every difference to the prediction fits into its limits (C02_exact_partial) |
| C03 | Loud, high-level signals never lose sync | proved | C03_high_levels, C03_gaps | levels 4 to 10, every signal in [-1, 1], every split into calls; with nine empty calls in a row C03_gaps |
| C04 | Quantisation error bound per level | proved | C04_error_bound, C04_gaps, C04_exact, C04_sharp | every level at which the decoder is in sync, which is exactly when it returns the stored codes (C04_exact); the bound is levelError L = 2^L * 1.01/32767 + 0.00101 (1 - 1/2^L), and at every level 0.94 of it are not enough (C04_sharp) |
| C05 | Splitting the input over encode calls does not matter | proved | C05_split | also for signals that are out of sync |
| C06 | Decode buffer sizes do not matter; decode delivers everything exactly once | proved | C06_buffers, C06_gaps | all levels; calls below 65536 blocks (see C16). With nine empty calls in a row the counts differ (see C07), but what is delivered is still the same (C06_gaps) |
| C07 | decode returns None only when nothing is left | partial | C07_false, C07_none_partial, C07_exact_partial, C07_counts_partial, C07_go_on_partial | false as stated: nine empty encode calls in a row make decode return None early. It holds exactly when there are never nine in a row before a call with a block (C07_exact_partial); what every call returns otherwise is C07_counts_partial, and calling on delivers everything (C07_go_on_partial) |
| C08 | End of stream is sticky | proved | C08_sticky_end | no condition on empty calls |
| C09 | Save/load transparency | proved | C09_save_load, C09_recordings | for every state reached by encode, decode and rewind calls, not only recordings; counters within the limits of their Rust types |
| C10 | A torn save is never accepted | proved | C10_torn_save, C10_recordings | same states and limits as C09 |
| C11 | save_to reports exactly whether all bytes were accepted | proved | C11_save_reports | for every codec and every writer, including short and interrupted writes |
| C12 | Seek equals skipping | proved | C12_seek_is_skip, C12_gaps | for every mixture of reads and seeks, after rewinding, without rewinding, and after loading; streams below 2^64 bits. C12_gaps allows any empty calls |
| C13 | Seek beyond the end is safe | partial | C13_false, C13_beyond_partial | false as stated: seeking behind the end panics. C13_beyond_partial says for every recording which seeks panic |
| C14 | Seek time is monotone and accurate | partial | C14_false, C14_seek_time_partial, C14_exact_partial | false for extreme values, where the integer conversion saturates; proved with the saturation for all sample rates and times, together with the exact block |
| C15 | Sample count matches what was encoded | proved | C15_sample_count | calls below 65536 blocks (see C16) |
| C16 | Long frames | partial | C16_false, C16_long_calls_partial | false as stated: a frame header keeps the length modulo 65536; every call of exactly 65536 mono samples is counted as empty. The exact count for all calls is proved |
| C17 | filesize_upperbound is an upper bound (AdhocCodec) | partial | C17_false, C17_upperbound_partial | false as stated: the estimate misses 352 bits. The exact difference is proved; it is an upper bound exactly if the vector of header nibbles has 44 unused bytes or more |
| C18 | filesize_upperbound is exact (WavCodec) | proved | C18_wav_filesize | For every recording: whatever save_to writes to a faultless writer has exactly filesize_upperbound bits, and in release builds it always writes (in debug builds the header arithmetic can overflow for absurd headers). |
| C19 | Worst-case expansion | partial | C19_false, C19_expansion_partial, C19_worst_partial, C19_reached_partial, C19_any_length_partial | false in release builds for very long calls: the 32-bit sums compared by the encoder wrap, so the worst parameter is picked (16383 bits per sample for 262164 alternating samples in one call). Proved for calls of at most 131064 blocks, with the least bound: 16 bits for the first three samples of a channel and 17 for each other one, reached for every length by a full-scale alternation; for calls of any length 16386 bits per sample are never exceeded |
| C20 | The Rice parameter is optimal | partial | C20_false, C20_optimal_parameter_partial, C20_wrapped_partial | false in release builds for very long calls (the 32-bit sums wrap). Proved for calls of at most 131064 blocks; for calls of any length the exact choice is proved: the first parameter with the least positive sum modulo 2^32 |
| C21 | Reusing a codec after rewinding | partial | C21_false, C21_field_partial, C21_again_partial, C21_level0_partial | false in two ways: old frames stay behind a shorter recording, and old bits are mixed into fields crossing a 128-bit boundary. Proved: for one field over any memory exactly what is read back, and exactly when it survives; after any history of calls other than loads, a new recording panics as on a new codec, has the same headers up to its length and its bits lie between the new ones and the new ones joined with the old; at level 0 it plays the same if it is no shorter and the old bits are among its own |
| C22 | encode's return value | partial | C22_false, C22_encode_return_partial, C22_wav_partial | false for AdhocCodec: it returns the length of the buffer including an unfinished block; exact behaviour proved. True for WavCodec (whole samples in the codec) |
| C23 | decode leaves the rest of the buffer alone | partial | C23_false, C23_tail_partial | false above level 0: the whole buffer is multiplied by the scale. C23_tail_partial is the exact behaviour on every codec state; the claim holds at level 0 |
| C24 | Channels do not leak into each other | proved | C24_channels | also for signals that are out of sync |
| C25 | No panic on documented use | proved | C25_panics_exactly, C25_no_panic | for every sequence of encode, decode and rewind calls on a fresh codec: says exactly which sequences panic in a release build |
| C26 | No arithmetic overflow in debug builds | partial | C26_false, C26_debug_partial, C26_exact_partial, C26_high_levels_partial | false as stated: a full-scale alternating signal overflows an i16 subtraction in debug builds. For calls of at most 131064 blocks a debug build overflows exactly when some call codes more differences of at least 49152 than differences below 16384 for a channel. Overflow is shown to be the only extra panic, and it does not happen at levels 2 to 10 with samples in [-1, 1] |
| C27 | Call-order protocol | partial | C27_false, C27_order_partial | false for codecs recorded into twice: with a longer old recording in memory, decoding right after recording panics. The rest is proved, with the exact condition |
| C28 | Bit stream is a faithful bit list | proved | C28_bitstream_roundtrip, C28_bitstream_bits | as stated |
| C29 | Rice code round trip | proved | C29_rice_roundtrip, C29_param15_debug_panics | as stated |
| C30 | Capped Rice code round trip | proved | C30_capped_roundtrip | as stated |
| C31 | Decoding always terminates | proved | C31_read_terminates | as stated |
| C32 | Corrupt .adhoc files are rejected or decoded without panic | partial | C32_false, C32_exactly_partial, C32_corrupt_files_partial | false as stated: a file whose header count exceeds its header data loads and panics on decode. C32_exactly_partial gives the exact condition for a loaded release-build codec to survive every sequence of decode calls and rewinds. Loading itself never panics in release, and files with consistent header lengths and at least one channel never panic on decode |
| C33 | WAV save/load round trip | partial | C33_false, C33_data_size, C33_save_load_partial | False as stated: recordings of less than 212 bytes cannot be loaded (C33_false), and a recording of exactly 1635017024 bytes loads with 32 bytes of header in front (C33_data_size). For all other sizes saving and loading is proved exact, in both builds. |
| C34 | WAV codec is a sample tape | partial | C34_false, C34_tape_partial, C34_codecs, C34_half_partial, C34_every_codec | false for a codec loaded from a file ending in half a sample, where encoding at the end is misaligned; proved for every codec with whole samples and every sequence of calls. With half a sample at the end the exact behaviour of every sequence of calls is that of a tape on which samples are appended one byte too late (C34_half_partial); every codec with its cursor inside is of one of the two kinds (C34_every_codec) |
| C35 | Truncated WAV files load as a prefix | partial | C35_false, C35_truncated_partial | False for the recording size whose size field spells 'data'. For all other sizes every prefix of the file is shown to load as the prefix of the recording, or to be rejected below 256 bytes. |
| C36 | WAV load never panics | partial | C36_false, C36_load_panics_partial | False: the exact set of panicking byte strings is proved (first 'data' at byte 249 to 252 of at least 256 bytes). |
| C37 | WAV load reads only the data chunk | partial | C37_false, C37_loaded_partial | False: chunks after the data chunk are loaded as sound. Proved for every file that loads: the sound is everything after the chunk header to the end of the file. |
| C38 | 16-bit sample conversion is faithful | partial | C38_false, C38_codes_partial | false for 1537 of the 65536 values; exactly which, and what they become, is proved, as is idempotence |
| C39 | Sample conversion is bounded, monotone and accurate | proved | C39_conversion | all parts, for every f32 |
| C40 | WAV seek semantics | partial | C40_false, C40_seek_partial, C40_exact_partial | false for extreme times, where the i64 product overflows; proved for all others, and that the cursor always stays inside. The exact result for all times, modulo 2^64 in release builds and with the exact condition of the panic in debug builds, is C40_exact_partial |
| C41 | WAV seek from the end | partial | C41_false, C41_end_partial | false as stated: End(0) goes to the start. Proved that End is the same as Start |
| C42 | WAV seek on an empty stream is safe | partial | C42_false, C42_empty_partial | false as stated: every seek on an empty stream panics |
| C43 | WAV decode delivers whole blocks | partial | C43_false, C43_blocks_partial, C43_exact_partial | false after a seek behind the end, which goes to the last sample instead of a block; proved for all encode and decode calls, and for exactly the seeks that do not go to the last sample of several channels; after those the next decode reports 1 and is between blocks again |
| C44 | WAV save_to with short writes | partial | C44_false, C44_short_writes_partial | False: the header goes through one write call whose count is ignored. Proved for every writer: the file is complete iff save_to succeeds and the first write takes all 44 bytes. |
| C45 | 8-bit WAV conversion | proved | C45_eight_bit | Exact value of every loaded byte, in order, for every 8-bit file that loads; strictly monotone with the claimed ends. |
| C46 | NibbleList is a list of 4-bit values | proved | C46_nibble_list, C46_set_past_end_corrupts | the range condition on set is necessary (second theorem) |
| C47 | NibbleList can be reused after clear | partial | C47_false, C47_push_after_clear_partial, C47_pushes_after_clear_partial, C47_history_partial | false as stated: stale nibbles are merged by OR; refuted. Proved exactly: what any number of pushes after clear leave, when they are what was pushed, and what every history of push, set and clear with nibble values leaves |
| C48 | BitVec is a list of bits | proved | C48_bitvec | as stated |
| C49 | Sample history is a window on the last four samples | proved | C49_circular_stack, C49_pushes, C49_is_empty_inverted | also shows that is_empty answers true exactly when full |
| C50 | Frame headers form an overwritable log | proved | C50_frame_headers | as stated |
| C51 | Ring buffer is a bounded deque | proved | C51_ring_buffer, C51_capacities | as stated |
| C52 | Linked list is a sequence | proved | C52_linked_list | fewer than 2^32 - 1 live items; calls at stored pointers of live items |
| C53 | LRU cache | proved | C53_lru_cache, C53_length | capacities 1 to 2^32 - 1; the HashMap is trusted to be a map; C53_length is the same with the length of the list as a u32 |
| C54 | LRU cache of capacity 0 is safe | partial | C54_false, C54_capacity_wraps, C54_other_calls_partial | false as stated: put on capacity 0 indexes past the (empty) list memory; the other calls are harmless |
| C55 | Branchless convolution equals the branching one | proved | C55_branchless | every bit pattern, including NaN and infinities |
| C56 | Dither noise is bounded and overflow-free | proved | C56_dither | any number of values, both builds; level 0 leaves every sample unchanged up to the sign of zero, which is not modelled |
| C57 | Predictor extrapolates | proved | C57_predictor | every three codes |
| C58 | CLI conversion round trip | proved | C58_round_trip | both builds. The header fields must fit (data below 4 GiB, sample rate * channels * 16 below 2^31), as in C33; with an odd number of data bytes the file is not a 16-bit WAV and not covered |
| C59 | CLI reports failed saves | partial | C59_false, C59_partial | false: the result of save_to is dropped. Proved for every input and device what is returned and what the device has received |
| C60 | Resampling to the same length is the identity | proved | C60_same_length | all lengths from 2 to 2^24 |
| C61 | CLI output name | partial | C61_false, C61_partial | false for stems with a dot, which lose what follows it, so that outputs collide; the exact output name is proved for all stems except . and .., which are in C148 |
| C62 | Linked list survives serialisation | proved | C62_serialised_list | every history of C52; the items' own serialisation is only assumed to read back what it wrote; truncated serialisations are rejected |
| C63 | Debug and release builds agree | proved | C63_builds_agree | as stated |
| C64 | CLI conversion keeps the shape at every level | proved | C64_same_shape | header fields in range as in C58 |
| C65 | Saved WAV files have a correct RIFF header | proved | C65_riff | for headers whose fields fit |
| C66 | Which WAV files are accepted | proved | C66_accepted | together with C36, which covers strings shorter than a header |
| C67 | Convolution is accurate | proved | C67_convolution, C67_short_result | as stated |
| C68 | Resampling is linear interpolation | partial | C68_false, C68_resample_partial | false for d = 1: the code divides by zero and writes NaN; proved for every d from 2 to 2^24 |
| C69 | Parallel conversion does not depend on the schedule | partial | C69_false, C69_schedule_partial, C69_wav_inputs_partial | false when two inputs share an output name (x/a.wav and y/a.wav) or an output is an input; proved for all runs otherwise, and that WAV inputs with different names without further dots are such |
| C70 | An interrupted conversion damages nothing else | proved | C70_interrupted, C70_torn_adhoc | for inputs that do not share outputs (C69); in-order writes, no loss of written data at a power failure; torn .adhoc files for 16-bit WAV inputs of at most 1024 channels |
| C71 | Repeated transcoding settles | proved | C71_codes_only, C71_generations | buffers cut like the calls, calls of whole blocks |
| C72 | Smooth signals are compressed | proved | C72_compression, C72_constant | about the codes the encoder stores; at level 0 these are the 16-bit codes of the samples (C72_constant) |
| C73 | CLI conversion error bound per level | proved | C73_cli_error | header fields in range as in C58; level 0 is C58 |
| C74 | Capacity of a bit stream | partial | C74_false, C74_cursor_partial, C74_recording_partial | false: reads raise the capacity too; proved that it is the furthest position of the cursor after any call, reads included, and that it is the length after a recording |
| C75 | Quiet or smooth signals are in sync | proved | C75_quiet, C75_smooth, C75_sharp | complements C01, C02 and C03 |
| C76 | Recording only appends | proved | C76_append, C76_snapshot | as stated |
| C77 | Damage stays local | proved | C77_damage, C77_file | targets strictly behind the damage and within the recording; streams below 2^64 bits, files of fewer than 2^32 frames |
| C78 | Every call and every conversion ends | proved | C78_every_call_ends | every codec state and every input, both builds; the model's round limits are never reached, and more rounds change nothing |
| C79 | Playing is bounded by the size of the file | proved | C79_bounded_by_file | every byte string that loads; also with zero channels, where every read panics |
| C80 | Loading allocates in proportion to the file | partial | C80_false, C80_vectors_partial | false: the channel count is a 32-bit field of the file, and 117 bytes make 4294967295 channel states. Everything else a loaded codec holds is bounded by the size of the file |
| C81 | Files are canonical | proved | C81_canonical, C81_injective | every byte string that loads, also corrupt ones; injective for all codecs with counters in the range of their Rust types |
| C82 | Dither noise is triangular and unbiased | proved | C82_period, C82_triangular | any number of values, both builds; the shares over one period are computed in the kernel and carried to all whole periods by the period |
| C83 | CLI compression level option | partial | C83_false, C83_level_partial | false as stated: a number from 2^32 on counts as 5, silently, and so does any text that is not a number. Proved: exactly which values count as which level, and that the level reaches the file |
| C84 | CLI converts by extension | partial | C84_false, C84_dispatch_partial | false as stated: an extension in capitals is passed over (and convert_file returns Some), and any extension that contains wav or adhoc is taken. Proved: exactly what is converted, and where to. File names are valid Unicode; what clap does is not modelled |
| C85 | Nodes are read from maps with exactly their two fields | proved | C85_map | the decoders of the two values are parameters; the format delivers the entries of the map in some order |
| C86 | Noise histogram counts every value once | proved | C86_histogram | within 2^-20 of the bounds of a tenth the part is one of the two neighbours, by the rounding of the bounds; without values the division by zero panics |
| C87 | Mean squared error | partial | C87_false, C87_mse_partial | false for empty signals, whose error is NaN. Proved otherwise, for every squaring function that is 0 at 0 and even (Rust does not specify powf) |
| C88 | Gaussian filter is symmetric | partial | C88_false, C88_ends_partial, C88_places_partial, C88_bell_partial | false: N = 1 gives NaN, and of four coefficients the inner two are taken at places that are not mirror images. Proved: N values, and the first is the last; all places are in [-r, r], in order, within r / 2^21 of where they should be, mirrored ones within r / 2^20, and with odd N the middle one is 0. exp, powf and sqrt are parameters, so this holds for any values of theirs; if they are monotone (Platform), the coefficients are finite, not negative, rise to the middle and fall from there on (C88_bell_partial) |
| C89 | Recording the same again changes nothing | proved | C89_same_again | level 0, where no noise is added; any calls that a new codec accepts, both builds |
| C90 | Seeking restores synchronisation | proved | C90_seek_resync, C90_repaired, C90_gaps | targets within the recording; calls as in C01, streams below 2^64 bits. C90_gaps allows any empty calls |
| C91 | Settings may come in any order and during a recording | proved | C91_any_order, C91_info_again, C91_levels | before a recording the channel counts may change too; during it they stay the same. Calls as in C01 |
| C92 | Setting the level of a recording does not change its loudness | partial | C92_false, C92_gain_partial | false: playing multiplies by 2 to the level set last, so a recording gets louder or quieter when its level is set. Proved: exactly this, for every codec state and every sequence of reads and seeks |
| C93 | Cutting the input into encode calls does not matter at any level | partial | C93_false, C93_mono_partial, C93_close_partial | false with more than one channel at levels above 0, where the cut decides which sample gets which noise. Proved: it holds at every level for one channel (level 0 for any number of channels is C05), and for any number of channels no sample in [-1, 1] changes by more than twice the error of the level while the decoder is in sync |
| C94 | A channel is treated as if recorded alone | proved | C94_alone | calls as in C01; the channels alone are recorded by a release build, which cannot overflow (C26) |
| C95 | CLI conversions settle after one round | proved | C95_settles | shorter data and the one size 1635017024 make a WAV file that does not load or loads otherwise (C33) |
| C96 | Polarity does not matter | proved | C96_size, C96_sound | calls as in C01 for the sound; the model has no negative zero |
| C97 | Every way to seek works | partial | C97_false, C97_modes_partial, C97_then_partial | false: seeks relative to the position or the end panic (unimplemented!), and after a seek to a later time recording panics. Proved: what every way to seek does, in every codec state, and what recording after a seek does |
| C98 | A saved recording can be continued | partial | C98_false, C98_over_partial, C98_whole_partial, C98_no_end_partial | false: recording into a loaded codec starts over on top of the file, and panics once something was played or sought. Proved: exactly what it writes, at every level; that it panics, for every file; and that recording everything again with more behind gives the uninterrupted recording bit by bit |
| C99 | A wrong channel count, corrected at once, does no harm | partial | C99_false, C99_corrected_partial | false: a count that is too small loses the state of the other channels. Proved: after a count that is large enough the codec is as before, and after one that is too small exactly which channels are new |
| C100 | Silence stays silent | partial | C100_false, C100_hiss_partial, C100_gate_partial | false at the levels 1 to 4, where the noise alone is stored as up to 8, 6, 3 and 1 steps. Proved: these bounds (an example shows that they are reached), that silence stays silent at the levels 0 and 5 to 10, and there also every silent or faint sample in any recording |
| C101 | Every seed gives noise | partial | C101_false, C101_values_partial, C101_refused_partial, C101_period_partial | false: with the seed 455685 (and all congruent to it modulo 507961) the generator stands still, so that all triangular values are 0, and with seeds from 18446688733644 on a debug build panics at the first value. Proved: exactly these seeds; every other seed gives the stated values without panic, with the exact periods 253980 (uniform) and 126990 (triangular). |
| C102 | Every file plays finite samples | proved | C102_loaded, C102_recorded | for all byte strings that load accepts and all sequences of reads and seeks; for recordings under the bound 2^level, without the excess of 1/32768 that a raw -32768 in a made-up file gives. |
| C103 | Samples out of range are clipped | partial | C103_false, C103_level0_partial, C103_headroom_partial | false above level 0: samples of 3/2 play as 3/2 at level 1. Proved: at level 0 the recording is bit for bit that of the clipped signal, for all samples; at every level, when in sync, every sample is played as the sample limited to [-2^L, 2^L] up to a stated error, so that level L clips at 2^L. |
| C104 | A parabola goes through its points | proved | C104_parabola, C104_points | for samples of at most M <= 2^100 and places of at most X <= 1024 (X >= 1) the error is at most (2 + 28 X + 16 X^2) M / 2^24 + X^2 / 2^140; sharper at the three points. |
| C105 | The example programs convert completely or fail loudly | partial | C105_false, C105_compress_partial, C105_decompress_partial, C105_round_trip_partial | false: decompress ends normally after a device took only ten bytes of the 44-byte header (the header is written with one unchecked write, see C44). Proved: exactly when each program runs to its end, which for compress is when the device took the whole file; the round trip for every WAV file with at least 3 blocks and at most 341 channels, within 165 of 32768. |
| C106 | A pointer to a removed item is refused | partial | C106_false, C106_remove_partial, C106_insert_partial | false: with one item left remove_at removes it whatever pointer is given, and insert_at to the right of a free slot that points to another one hangs the new item into the free slots, so that it is lost and the first item is iterated twice. Proved: exactly what both calls do with the pointer of a free slot, after every history. |
| C107 | iter_mut hands out each item exactly once | proved | C107_iter_mut | the aliasing rules behind the transmute are not modelled; an unchecked access out of range is a panic in the model, which the theorem excludes. |
| C108 | The cache and the ring buffer survive serialisation | proved | C108_cache, C108_ring | the order of the HashMap is arbitrary; the serialisation of keys, values and items is only assumed to read back what it wrote. |
| C109 | iter_mut is safe whatever calls were made | partial | C109_false, C109_range_partial, C109_stale_partial | False: an insertion with a stale pointer makes iter_mut hand out one item twice, that is two mutable references to one place, without unsafe code of the caller. Proved: for every list whatsoever the accesses stay inside its memory; after any history with live pointers (where C107 holds) an insertion with a stale pointer other than NULL that does not panic always makes a duplicate. |
| C110 | A number can be overwritten in place | partial | C110_false, C110_exact_partial, C110_survives_partial, C110_capped_partial | False: 30976 written over ones with 256 as the divisor is read back as 31200, because the part of the remainder beyond a 128-bit boundary is or-ed into the old bits. Proved for every memory, place, divisor and number: what exactly is read back, with both functions; when the number survives; that it always does with the divisors 1 and 2 of the crate's tests. |
| C111 | Every accepted WAV file is compressed | partial | C111_false, C111_exactly_partial, C111_survives_partial | False: files without channels and files with fewer than three samples for each channel make the tool panic, and of files with more than 1024 channels it writes a recording without sound. Proved: for every accepted file what exactly happens, and in a release build which files are compressed. |
| C112 | Higher compression levels never make a recording longer | partial | C112_false, C112_worst_case_partial, C112_all_levels_partial, C112_smaller_partial | False: eight silent samples take 63 bits at level 0, but 75, 72, 70 and 65 at the levels 1 to 4, which store noise. Proved: at level L from 3 to 10 no recording of samples in [-1, 1] takes more than 48 + (21 - L)(N - 3) bits for each channel of N samples (17 instead of 21 - L at the levels 0 to 4), and from level 6 on it takes fewer bits than 16 for each sample. |
| C113 | What is played depends only on what was recorded up to then | proved | C113_causal, C113_pointwise | for two recordings whose calls have the same lengths (the noise restarts with each call). |
| C114 | The sample rate is only a label | proved | C114_label, C114_seek, C114_file | for every codec whatsoever, also one loaded from a made-up file. |
| C115 | A codec for no channels is harmless | partial | C115_false, C115_adhoc_partial, C115_wav_partial | False: even encoding or decoding nothing divides by zero. Proved for every codec of no channels in whatever state: which calls panic and which do not. |
| C116 | Playing a recording leaves its file as it was | partial | C116_false, C116_recording_partial, C116_any_partial | False as stated: a file with a header and no data is accepted by load, and reading from it appends zero chunks, so the next save is longer (C116_false). Proved: for every recording, both from the encoder and reloaded, any reads and any seeks inside the signal leave the saved bytes exactly as they were; for every codec whatsoever, finished reads and seeks can only append zero chunks and raise the stated length. |
| C117 | A bit stream works wherever its cursor stands | partial | C117_false, C117_exact_partial, C117_calls_partial | False as stated: with the cursor set two chunks beyond the end a write is an index panic (C117_false). Proved: for every memory and position the exact condition under which write_bits, read_bits, write_bit and read_bit succeed, and what the reads return; and that sequences of any calls that do not set the cursor beyond the memory never fail except by debug overflow checks. |
| C118 | A cleared bit stream is as good as new | partial | C118_false, C118_cleared_partial, C118_zero_needed | False as stated: read_bit does not move beyond the memory of a new stream but does move in a cleared one (C118_false). Proved for all sequences of calls in which single bits and compressed numbers are read only where the new stream has memory; and that seek_start without zero is not enough. |
| C119 | Resampling keeps the ends and the range | partial | C119_false, C119_last_false, C119_range_partial, C119_polarity | False as stated: two samples 13/16 stretched to six give a sample one unit in the last place larger, and two samples stretched to 42 lose the last one by a unit. Proved: the first sample is exact, nothing leaves [-1, 1], no negative samples appear, the range is exceeded by at most 2^-21 whatever the lengths, and polarity does not matter. |
| C120 | The laws of convolution | proved | C120_shift, C120_identity, C120_response, C120_silence, C120_local, C120_polarity | For convolve_1d; by C55 the branchless version does the same. The shift, response and silence laws need finite numbers: zero times infinity is NaN (example). |
| C121 | The tool decompresses every recording completely | partial | C121_false, C121_decompress_partial, C121_wide | False as stated: with more than 1024 channels one sample of each does not fit the tool's buffer and the tool writes a WAV file without any samples and reports success (C121_wide, C121_false). Proved for all recordings with up to 1024 channels. |
| C122 | The .adhoc file is determined byte by byte | proved | C122_file | The layout is described in Verif/Spec/Format.lean without reference to the codec's data structures. It includes the spare 16-byte block at the end of the sound, which depends on the width of the number written last. |
| C123 | How large files are and what the tool saves | proved | C123_length, C123_tool, C123_smaller | C123_tool bounds the file at levels 4 to 10 for up to 341 channels: 21 - level bits for a sample plus the headers. |
| C124 | Indexing the ring buffer and the sample history | partial | C124_false, C124_slots_partial, C124_queue_partial, C124_history_partial | False: q[i] reads the backing store, so after pop_front q[0] is still the removed item (C124_false). Proved: the i-th item is at (front + i) mod capacity and assigning there replaces exactly it; q[i] is the i-th item while items were only added at the rear; for the history, prev(k) is at (cursor - k) mod 4. |
| C125 | The unit tests pass whatever data they use | proved | C125_compressed, C125_capped, C125_aligned, C125_unaligned, C125_unaligned_sharp, C125_read_back, C125_sanity, C125_sanity_tests | The tests are written as programs on the model; the remaining tests with assertions are replayed as examples in the same file. |
| C126 | Copying a WAV file | proved | C126_copy, C126_again, C126_exact, C126_file | The loop of the test is a program on the model. The theorems about cells are for codecs with whole samples; C126_file is for every accepted file, also one that ends with half a sample. |
| C127 | A player written from the format plays recordings like the library | proved | C127_player, C127_gaps | For recordings whose calls have fewer than 65536 blocks and never nine without a block in a row (C127_gaps otherwise), and whose counters fit the fields of the file. The player shares with the model only the arithmetic of one sample: the prediction (C57) and the conversion of a code to a float (C38). |
| C128 | The library plays the files of any encoder | proved | C128_foreign, C128_gaps, C128_go_on | For levels up to 30 (31 gives a negative scale, more overflows), pieces of fewer than 65536 samples with as many in every channel, values of 16 bits without -32768, no table shorter than the number of pieces (otherwise indexing panics), and never nine rows without a sample before one with samples (what happens otherwise is C128_gaps and C128_go_on). |
| C129 | The test re_encode works for every WAV file | proved | C129_inverse, C129_close | Header fields in range as in C58. C129_inverse covers every level for which the tool's conversion does not panic (see C26 for debug builds at low levels); C129_close is level 4, without further conditions. |
| C130 | Seeking in the files of any encoder | proved | C130_seek, C130_beyond, C130_gaps | Files as in C128 (level at most 30, no nine empty rows before one with samples; otherwise C130_gaps), of fewer than 2^64 samples. The place a seek goes to is seekOffset, whose accuracy is C14. |
| C131 | Recordings made in the browser are those made on a server | proved | C131_alike, C131_recording, C131_loading | The flags of the frame headers are taken as on 64 bits (there are fewer than 2^32 frames). C131_alike with 64 bits also shows what the unbounded cursors of the model leave out. |
| C132 | Sizes in the browser | partial | C132_false, C132_exactly_partial, C132_others_partial | False: the number of bits is a usize product, which overflows from 512 megabytes on; nine hours of silence take 540 megabytes. Proved: exactly what is reported or panics, also for the other sizes of the bit stream. |
| C133 | How a reader hands out its bytes does not matter | proved | C133_adhoc, C133_wav | A reader that claims to be at its end too early is left out for WAV: the samples behind are lost without an error (example beside the theorem). |
| C134 | Recordings one after the other in one file | proved | C134_one_file | as stated |
| C135 | Half a sample at the end of a WAV file changes nothing | proved | C135_codec, C135_programs | Encoding behind the half sample is not meant: it ends up in the new samples (example beside the theorem; C34). |
| C136 | The unsafe views of the WAV codec are valid | partial | C136_false, C136_exactly_partial, C136_header_partial, C136_layout_partial | False: the bytes are seen as i16 without regard to alignment; decode of a codec just made (nothing allocated, dangling address 1) and of samples at an odd address is undefined, and aborts in debug builds since Rust 1.78. Proved: it is defined exactly if bytes are allocated at an even address, and then the view and all indices are inside; the views of the header are always valid. |
| C137 | WAV files do not depend on the machine | partial | C137_false, C137_little_partial, C137_view_partial, C137_refused_partial, C137_saved_partial, C137_header_partial | False on big-endian machines: every sample is decoded with its bytes exchanged, every WAV file of another machine is refused, and so is theirs elsewhere. On little-endian machines everything is as modelled. The .adhoc format has no such dependence: bincode and the bit stream use arithmetic only. |
| C138 | A recording allocates memory logarithmically often | proved | C138_allocations | Seven vectors, each allocated at most log2 N + 9 times, where N counts samples and frames. Assumes the doubling of Vec in the standard library; allocations of decode (VecDeque) and of the caller are not counted. |
| C139 | Encoding and decoding take linear time | proved | C139_encode, C139_recording, C139_playing, C139_replaying | A tick for every round of every loop, in copies of the model's functions that are shown to give the same results and panics. 276 ticks for every sample or frame recorded; 93 for every sample asked for, 130 for every sample declared and one for every 16 bytes when playing. Runs that panic are not bounded. |
| C140 | A seek looks at the rows and decodes one of them | proved | C140_seek | With the same clock. The constant is one frame of 65535 samples for every channel. |
| C141 | Playing takes bounded memory | proved | C141_memory, C141_seeks | For runs that do not panic. C141_seeks adds seeks to any place, for files whose stored positions are inside their data. The waiting samples are bounded for each channel. |
| C142 | The frame index holds every frame, however many | partial | C142_false, C142_below_partial, C142_push_partial, C142_next_partial, C142_full_partial, C142_behind_partial | False as stated: nibble_count and header_cursor are u32, so the 2^32nd push panics in a debug build (C142_false). Proved: below 2^32 frames the index is right in both builds and equal to the index of the model with unbounded counters; a push into any index, also one wound back, is that of the model with unbounded counters; reading never overflows; in a release build the index of 2^32 frames is empty, and the header pushed next is lost: read in its place is the first one, with the exponents merged. |
| C143 | A seek forgets the past | partial | C143_false, C143_inside_partial, C143_both_partial, C143_recording_partial | False as stated: in a file whose stored position lies a chunk too far the seek panics, but not after a read, which has made the stream longer (C143_false). Proved for every codec in every state: equal, panics included, if the stored positions are inside the stored chunks or if it is only wound back to the start; for all files equal whenever both succeed; and for every recording, in memory or loaded. |
| C144 | A list read from bytes can be iterated over | partial | C144_false, C144_exact_partial, C144_threaded_partial, C144_long_partial | False as stated: 45 bytes with one node linking to itself and length 2 are read as a list of which iter_mut hands out the only item twice (C144_false). Proved for every list: it holds exactly if the right links lead through as many different full slots as the length says; then both iterators give the items in this order; and it never holds if the length exceeds the memory. |
| C145 | Negative zero is nothing special | proved | C145_encode, C145_decode, C145_buffered, C145_made, C145_loaded, C145_rest, C145_wav_encode, C145_wav_decode, C145_convolve, C145_other, C145_signs | Proved with a second model of f32 that has two zeros (Z32) and a second copy of every function through which samples pass; also shows that the single zero of the model F32 loses nothing else. |
| C146 | A linked list holds any number of items | partial | C146_false, C146_calls_partial, C146_fits_partial, C146_full_partial, C146_after_partial | False as stated: the 2^32nd item makes a debug build panic and empties the list in a release build (C146_false, C146_full_partial); the item pushed after that is not in the list either, which then holds the very first item (C146_after_partial). Proved: up to 2^32 - 1 items all calls do what they do with an unbounded length, in both builds, and so C52 holds for the list with 32 bits. |
| C147 | A ring buffer read from bytes is a deque | partial | C147_false, C147_exact_partial, C147_read_partial, C147_items_partial, C147_new_partial | False as stated: 26 bytes with capacity 3 are read although new rejects this capacity (C147_false). Proved with all u32 sums of both builds: a ring buffer acts as a bounded deque exactly if it is empty of capacity 0, or its capacity is a power of two not above the size of the store, both ends are inside and the rear is len behind the front (item types with at least two values); the items are then read off the store. A buffer made by new acts as a deque exactly if its store has room for the capacity. |
| C148 | The tool writes only into the output directory | partial | C148_false, C148_exact_partial | False: a file called ..wav has the stem '.', and converted into the directory out it is written to out.adhoc beside the directory (C148_false). Proved for all paths: exactly where the output goes; it is directly in the directory for every stem but . and ..; with .. no file can be created. |
| C149 | A conversion does not overwrite its input | proved | C149_own_input | for all paths as written; links and file systems that ignore case are not modelled |
| C150 | A call that is too long loses only its own end | partial | C150_false, C150_last_partial, C150_before_partial | False: of 65539 stereo blocks with silence on the left, the right channel is read from the left over bits of the left channel and is silent too (C150_false). Proved at every level: in mono with only the last call too long, exactly its end is lost and what every read returns is given; with any channels, what was recorded before the first call that is too long plays as ever. Not proved: what the rubbish read after it is. |
| C151 | A cache read from bytes is a cache | partial | C151_false, C151_made_partial, C151_reached_partial, C151_lookup_partial | False: 44 bytes are read as a cache of which looking up 7 panics (C151_false). Proved: a condition on the table and the slots under which a cache, whoever made it, answers every sequence of calls like the recency-ordered list of its items (C151_made_partial), which every cache a program can reach fulfils (C151_reached_partial); and for any cache whatever, what lookup does and when it panics. Not proved: that no cache outside the condition behaves well. |
| C152 | Any file can be recorded over | partial | C152_false, C152_exactly_partial, C152_always_partial, C152_saved_partial | False: over a file that counts one header but holds none, nothing can be recorded (C152_false). Proved for every file: exactly how many headers, one per call and channel, can be written before an index is out of range (C152_exactly_partial), exactly which files every recording can be made over (C152_always_partial), and that all saved recordings are among them (C152_saved_partial). |
| C153 | Seeking in a file panics only beyond its end | partial | C153_false, C153_exactly_partial, C153_debug_partial | False: a file that is said to have a frame more than a chunk behind its data can be loaded and played, but a seek to that frame panics (C153_false). Proved for every file whose stored positions are in its chunks or at their end: a sequence of reads and seeks succeeds if and only if all the times are in the file, and otherwise panics because a header is missing (C153_exactly_partial); a debug build may also overflow (C153_debug_partial). |
| C154 | A debug build only adds overflow panics | proved | C154_sessions, C154_wav, C154_tool, C154_stream, C154_containers, C154_signal | no hypotheses; which calls do overflow in a debug build is C26 for recordings |
| C155 | An incomplete block changes nothing | proved | C155_encode, C155_decode, C155_wav_encode, C155_wav_decode | for codecs whose stream info is set (all others panic); AdhocCodec::encode counts the samples dropped as well (C22), and AdhocCodec::decode multiplies the places it does not fill (C23), as the equations say |
| C156 | Every time behind the end of a recording is refused | partial | C156_false, C156_exactly_partial, C156_modulo_partial, C156_debug_partial, C156_when_partial | False: the number of blocks is multiplied with the number of channels in 64 bits, so in a release build 2^63 ms at 1000 Hz in stereo are taken for the start (C156_false). Proved for every recording (fewer than 65536 blocks in a call, fewer than 2^32 frames) which times are refused in a release build: those whose number of samples modulo 2^64 is behind the end (C156_exactly_partial). Proved for every codec in every state: in a release build only the number modulo 2^64 matters (C156_modulo_partial), a debug build panics (C156_debug_partial). It takes two channels and a product of rate, milliseconds and channels of 2^73 or more (C156_when_partial), so one channel is never affected. |
| C157 | The two codecs play the same | partial | C157_false, C157_same_partial, C157_files_partial, C157_end_partial | False at one time: at the end of the recording AdhocCodec has nothing to play while WavCodec plays its last sample, in stereo the one of the right channel on the left (C157_false). Proved: for times in front of the end both give the same results, in any builds, for all sequences that begin with a seek (C157_same_partial), and for all sequences on the two files loaded (C157_files_partial, at least 106 samples because of C33); what WavCodec gives at the end and behind it (C157_end_partial). |
| C158 | The calls of a WAV codec may come in any order | partial | C158_false, C158_exactly_partial, C158_safe_partial, C158_debug_partial | False: a seek on a codec without samples panics (C158_false). Proved for every sequence of calls: it does what it does on the tape (seeks as wav.rs has them, C40 and C41), and panics if and only if the head is moved on an empty tape (C158_exactly_partial); so no sequence panics once there is a sample (C158_safe_partial). A debug build adds overflow panics of seeks only (C158_debug_partial). |
| C159 | How a recording was cut into calls cannot be heard, seeks included | proved | C159_cuts | Level 0, in sync and proper calls as in C12, seeks up to the end, streams below 2^64 bits. Both recordings are the same tape of the quantised signal. With longer runs of empty calls reads stop early (C12_gaps). |
