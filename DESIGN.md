# Machine-checked model of libjxl (Lean 4)

## Trusted base

* Lean 4.33.0's kernel.  Theorems use at most the axioms `propext`, `Classical.choice`, `Quot.sound`;
  no `sorry`, no axioms of our own, no `native_decide`/`bv_decide`.
* The reading of the C++ source.  Every definition under `lean/Verif/Model` cites the file and lines it models;
  simplifications are written next to the definition.  The code was read, never run.
* Compilation, the memory model below the level of atomic operations, Highway SIMD lowering, floating point
  rendering (DCT, XYB, filters), Brotli, and the operating system are outside the model.

## Layout

* `Verif/Model/*`  – functions modelling the C++ code (executable, total).
* `Verif/Spec/*`   – small independent specifications used in statements (bit strings, permutations, ...).
* `Verif/Lemmas/*` – helper lemmas.
* `Verif/Props/*`  – the property theorems only, with a non-vacuity `example` beside each.

## Conventions

* Fixed-width C++ integers are `Nat`/`Int` when the property does not concern overflow and the needed bound is
  stated as a hypothesis or proved as an invariant; they are reduced modulo `2^n` (or are `BitVec n`) when wrap-around matters.
* C++ undefined behaviour is a distinct outcome (`none` / `.ub`) where the model can reach it; `JXL_DASSERT`s (not
  compiled in release builds) are proof obligations, `JXL_ENSURE`s are error outcomes.
* Loops are structural recursion, folds, or recursion on a fuel argument which is proved sufficient.

## Plan per property

| id | modelled | how proved |
|----|----------|------------|
| C01 | `BitWriter::Write/ZeroPadToByte` on a byte array; `BitReader` as below | refinement of both to bit strings; round trip corollary |
| C02 | `BitReader` with buf_/bits_in_buf_/next_byte_/overread_bytes_, both refill paths, UB outcome for out-of-range byte access | simulation to "bits of buffer followed by zeros", induction over operations |
| C03 | `BitsCoder`, `U32Coder`, `U64Coder`, enum, `ChooseSelector` | round trip on bit strings, arithmetic |
| C04 | `F16Coder::Read/Write/CanEncode` on bit patterns | finite table (65536 patterns, `decide +kernel` by ranges) or arithmetic; negation witnesses for lost sign |
| C05 | `SizeHeader::Set`, fields, `FixedAspectRatios` | arithmetic with truncating division |
| C06 | a deep embedding of visitors: bundle = list of field descriptors with conditionals depending on earlier values; Read/Write/CanEncode interpreters | induction over descriptors |
| C07 | `PackSigned/UnpackSigned` on `BitVec 32`/`Int` | bit-vector arithmetic by cases |
| C08 | Fenwick-tree encoder and order-statistics-tree decoder | refinement of both trees to counting spec; permutation inverse |
| C09 | `ReadGroupOffsets`, `WriteGroupOffsets` | prefix sums, permutation lemmas |
| C10 | `HybridUintConfig::Encode`, `ReadHybridUintConfig`, config coding | bit arithmetic |
| C11 | `InitAliasTable`, `Lookup` | loop invariant of the overfull/underfull process, counting bijection |
| C12 | `PutSymbol`, `WriteTokens` order, `ReadSymbol` | induction over symbols, invariant on states |
| C13 | `ReadHistogram`, `EncodeCounts` | bit string round trip; sum invariant |
| C14 | MTF both directions, `VerifyContextMap` | permutation invariant, induction |
| C15 | `BuildHuffmanTable`, `ReadSymbol`, `ConvertBitDepthsToSymbols` | canonical-code invariants |
| C16 | LZ77 window state machine | simulation with unbounded history |
| C17 | forward and inverse RCT over wrap-around integers | algebra on `BitVec 32` |
| C18 | 1-D squeeze, scalar and vector inverse | induction along the row; case analysis for the vector form |
| C19 | `GetPaletteValue` index arithmetic | arithmetic bounds |
| C20 | residual encoder/decoder with arbitrary tree and predictor | induction on pixels in raster order |
| C21 | tree walk, `FilterTree` flat nodes | induction over the tree |
| C22 | `DecodeTree` | loop invariant |
| C23 | `PredictICC`/`UnpredictICC` | command-stream semantics; negation witness for wrapped offsets |
| C24 | labelled transition systems of both thread pools, one step per atomic action | inductive invariants over all interleavings; negation at the 2^32 limit |
| C25 | corner counters, `GroupDone` part masks | invariant over completion orders |
| C26 | `FrameDimensions::Set`, `GroupRect` | arithmetic |
| C27 | `WriteBoxHeader`, `ParseBoxHeader` | round trip |
| C28 | decoder input counters (`AdvanceInput`, `AdvanceCodestream`, `RequestMoreInput`, `GetCodestreamInput`) | simulation with an abstract byte stream |
| C29 | jxlp reassembly state machine | permutation independence |
| C30 | `JxlBoxContentDecoder::Process` without Brotli | induction over calls |
| C31 | `GetFrameDependencies` | worklist closure invariant |
| C32 | `SafeAdd`, ..., `BytesPerRow`, `AlignedMemory` | modular arithmetic |
| C33 | `ReadSignature` | prefix reasoning |
| C34 | output processor wrapper | refinement to byte stream |
| C35 | varint codec | induction |
| C36 | JPEG bit writer / reader | refinement to bit strings |
| C37 | orientation index maps | arithmetic |
| C38 | `AlignedMemory` ownership | invariant over operations |
| C39 | `PaddedBytes` | refinement to list |
| C40 | `CoeffOrderAndLut` | finite tables and arithmetic |
| C41 | frame index box writer | round trip of the fields; negation for the tick counts |
| C42 | `RebalanceHistogram` with the rounding of logarithms as a parameter | loop invariant; negation by a 256-symbol histogram |
| C43 | `ApplyLZ77_RLE`, `ApplyLZ77_LZ77` (hash map) against the decoder of C16 | invariant "emitted symbols expand to the consumed prefix"; negation beyond the window |
| C44 | `TokenizeTree` against `DecodeTree` | breadth-first queue invariant |
| C45 | JPEG coefficient encoders of `dec_jpeg_data_writer.cc` with the 16384-byte chunk | byte budget invariant; negation by 152 blocks |
| C46 | output processor wrapper with a caller that may answer anything | invariant over calls; two negations |
| C47 | weighted predictor state with 32/64-bit arithmetic | range invariants |
| C48 | AC strategy, quantisation and EPF fields of a DC group | tiling invariant, raster induction |
| C49 | `TokenizeCoefficients`, `DecodeACVarBlock`, pass splitting | induction over the scan of a block; pass arithmetic |
| C50 | JPEG Huffman tables: two-level lookup and code assignment | canonical code refinement |
| C51 | JPEG scan decoder against scan encoder | simulation over the list of blocks |
| C52 | JPEG marker segments, marker loop, whole file | each segment is rewritten as read; induction over the file |
| C53 | the whole JPEG reader | invariant over the marker loop |
| C54 | prefix codes: building, run lengths, headers, against the reader | round trip; depth bound by Fibonacci numbers |
| C55 | whole entropy-coded streams: header, context map, codes, LZ77, tokens | round trip by induction over nesting and tokens; invariant for arbitrary bits |
| C56 | JPEG reconstruction data (`JPEGData::VisitFields`) | round trip field by field; acceptance is equivalent to an independent description of sound data |
| C57 | Metadata segments of JPEG files (`EncodeJPEGData`, `DecodeJPEGData`, `SetJPEGDataFromICC`, `SetExif`, `SetXmp`) | each pass of the decoder undoes a mask on typed segments; the encoder's types follow from an independent description of an intact profile |
| C58 | JPEG files through JPEG XL files (`ReadJpeg`, `EncodeJPEGData`, `ComputeJPEGTranscodingData`, `DecodeJPEGData`, `FrameDecoder`, `WriteJpeg` composed) | an invariant of the parser gives what C56 and C57 need; tables, sampling modes, padding and box are undone one by one; ends in C52; coefficients as in C59 |
| C59 | Coefficients of JPEG files in the codestream (`ComputeJPEGTranscodingData`, `AddVarDCTDC`, `DequantMatricesSetCustomDC`, `DecodeGroupImpl` with JPEG output) | prediction of chroma is undone exactly on 32-bit lanes; for DC coefficients only error bounds of the floating-point operations are assumed; negations by three files |
| C60 | Code lengths in the fast lossless encoder (`PrefixCode::ComputeCodeLengths` and below, enc_fast_lossless.cc:459-566) | the table of costs holds the least cost of every reachable state; backtracking follows it; undefined shift and failing assertion shown by witnesses |
| C61 | Prefix codes of the fast lossless encoder (`PrefixCode`, enc_fast_lossless.cc:239-263, 396-457, 571-612, 622-693, 2688-2691, 2750-2753, 2813-2818, 2871-2876, 3936-3971), read by the decoder of C15 | the two levels compose to a complete code; canonical words with a gap of zeros; the header replayed by the decoder's loop over lengths |
| C62 | Channels and stream header of the fast lossless encoder (`EncodeHybridUint000`, `EncodeHybridUintLZ77`, `ChunkEncoder`, `ChannelRowProcessor`, enc_fast_lossless.cc:387-394, 611-620, 2646-2676, 2960-3000, 3035-3062, 3109-3175), read by the decoder of C55 | what is written is a list of values and runs standing for the residuals (invariant on the pending run); these are tokens of a plan of C55 whose tables fit those of C61 |
| C63 | Groups of the fast lossless encoder (`WriteACSection`, `ProcessImageArea`, `FillRow…`, `StoreYCoCg`, the residuals of `ProcessChunk`, enc_fast_lossless.cc:3064-3142, 3176-3543), read by the modular decoder of C20 with the entropy decoder of C55 | residuals in `pixel_t` are those of the clamped gradient since all stored values lie in a window of a quarter of the type; tokens of the modular encoder's gradient leaf equal the residuals written; C62, C20 and C17 compose |
| C64 | Trees in the stream (`DecodeTree`, dec_ma.cc:97-182; `EncodeGlobalInfo`, enc_modular.cc:1287-1317) | the tree decoder over the entropy decoder does what it does over the token list, since the reader feeds it the same values (simulation by induction on the loop); C44 and C55 compose; a leaf's symbol 0 has a weight, so its table is not that of a single other symbol |
| C65 | Header of a modular image (`GroupHeader`, encoding.h:32-56; `Transform`, transform.cc:36-89; `SqueezeParams`, squeeze_params.cc:15-24; `weighted::Header`, context_predict.h:38-62) | each field's code covers exactly an interval; codecs (write succeeds exactly on good values, read returns them and nothing else) compose to lists and records |
| C66 | A modular image of its own (`ModularGenericCompress`, enc_encoding.cc:713-808; `ModularGenericDecompress`, `ModularDecode`, `ValidateChannelDimensions`, encoding.cc:530-731; `MetaApply`, `Inverse`, transform.cc:91-145; `undo_transforms`) | each transform: what the decoder announces to itself has the layout of what the encoder made, and is undone; then C65, C64, C55, C20 one after the other on the bits |
| C67 | The palette of the fast lossless encoder (`pixel_hash`, `detect_palette`, the palette part of `LLPrepare`, `FillRowPalette`, enc_fast_lossless.cc:3545-3566, 3754-3874) | the hash table after any pixels without a noticed collision holds exactly the non-zero colours at their places (invariant over the pixels); the unrolled loop reads inside the row; false for the colour zero, with a counterexample |
| C68 | Sections of the fast lossless encoder (`PrepareDCGlobalCommon`, `PrepareDCGlobal`, `WriteACSection`, `LLProcess`, enc_fast_lossless.cc:2925-3027, 3510-3543, 4001-4099), read by the decoder of modular frames (`DecodeGlobalInfo`, `DecodeGroup`, dec_modular.cc:209-422; `DecodeDC`, quant_weights.cc:513-528) | the literal bits of the tree are a plan of C64 and those of the headers are headers of C65; C63 for the samples; which transforms are undone where follows from the size of the channels |
| C69 | Sections with a palette (`PrepareDCGlobalPalette`, `ProcessImageAreaPalette`, `WriteACSectionPalette`, the counters, enc_fast_lossless.cc:3556-3637, 3674-3752, 3953-3962), read by the decoder of modular frames, with the copy of groups into the full image (dec_modular.cc:407-424) | C62 for channels of small values, C65 for the header, C67 for the indices; invariant over the groups decoded so far: the pixels of finished groups hold their indices; then the inverse palette pixel by pixel |
| C70 | Passes (`Passes::VisitFields`, `GetDownsamplingBracket`, `GetDownsamplingTargetForCompletedPasses`, frame_header.cc:137-178, frame_header.h:268-295), stream numbers (dec_modular.h:31-95), the area and shifts of each section (dec_frame.cc:318-333 and 510-538), the channels of a section on both sides (dec_modular.cc:355-379 and 407-424, enc_modular.cc:1394-1424), the channels of a frame before transforms (dec_modular.cc:250-279) | the announced rules of passes as a structure (`Good`); a sample is `Within` a section; exactly one section per sample; the whole image after all sections; the resolution of a number of passes as a power of two |
| C71 | The rows of patches: `ComputePatchTree` and `GetPatchesForRow` (dec_patch_dictionary.cc:188-319); `std::sort` is any function that sorts | the numbers of the patches that cover a row, by a filter over all patches |
| C72 | The dictionary of patches: `PatchDictionary::Decode` and `GetReferences` (dec_patch_dictionary.cc:31-186) into an object that may hold the dictionary of an earlier frame, `PatchDictionaryEncoder::Encode` (enc_patch_dictionary.cc:55-127); symbols by the entropy coder of C55 | the patches that are drawn: place, source rectangle, blendings (`drawn`, `Patch.Ok`) |
| C73 | Splines: `Splines::Decode`, `QuantizedSpline::Decode` and `DecodeAllStartingPoints` (splines.cc:250-280, 534-642), the control points in `QuantizedSpline::Create`, `Dequantize` and `InitializeDrawCache` (splines.cc:385-408, 444-476, 669-684) with `int` overflow as undefined, `EncodeSplines` (enc_splines.cc:27-90); symbols by the entropy coder of C55 | the points of curves (`CurvesOk`), and points from second differences (`track`) |
| C74 | Block contexts: `DecodeBlockCtxMap` (entropy_coder.cc:25-60), `EncodeBlockCtxMap` (enc_context_map.cc:141-178) with `EncodeContextMap` and its nested streams as in C55, the default map (ac_context.h:91-96, 145-149), the interval of DC values kept per block (compressed_dc.cc:251-291), `Context` as in C49 | limits of the format (`Fits`), number of thresholds exceeded (`interval`), an arbitrary assignment of contexts |
| C75 | Frame parameters: `QuantizerParams::VisitFields` (quantizer.cc:126-131), `ColorCorrelation::DecodeDC` (chroma_from_luma.cc:24-44), `ColorCorrelationEncodeDC` (enc_chroma_from_luma.cc:389-417), `EncodeNoise` and `DecodeNoise` (enc_noise.cc:332-338, 369-380, dec_noise.cc:154-164), integers and half-precision numbers of C03 and C04 | ranges (`Quant.Ok`, `Cfl.Limits`, `Cfl.Ok`, `NoiseOk`) and distance (`Near`) in units of 2^-149 |
| C76 | Quantisation tables: `DecodeDctParams`, `Decode`, `DequantMatrices::Decode`, `DecodeDC` (quant_weights.cc:373-528), `EncodeDctParams`, `EncodeQuant`, `DequantMatricesEncode`, `DequantMatricesEncodeDC` (enc_quant_weights.cc:28-164); tables given pixel by pixel are given functions | weights as multiples of half-precision numbers by place (`Multiple`, `Enc.Limits`, `TablesLimits`, `DcLimits`) |
| C77 | Global section up to its modular images: `FrameDecoder::ProcessDCGlobal`, `DecodeGlobalDCInfo` (dec_frame.cc:62-79, 269-302), `EncodeGlobalDCInfo` and the order of writing (enc_frame.cc:1240-1250, 1360-1381); not the draw cache of splines, not the modular part | selected contents that can be written, what must be the same after reading, what holds of anything read (`GlobalSection.Ok`, `Same`, `Good`) |
| C78 | Rectangles: `x1`, `ClampedSize`, `Intersection`, `Crop`, `Translate`, `IsInside`, `ShiftLeft`, `CeilShiftRight`, `Extend` (rect.h:52-171) with 64-bit unsigned and signed positions, wrapping and undefined overflow; not `Row` and its variants | sets of pixels (`Seg.Has`, `Rect.Has`), positions and sizes up to 2^60 (`Rect.Ok`) |

The theorem names and the exact scope of each claim are in `MANIFEST.json`.

## What is not modelled

* Pixel rendering: DCTs, colour transforms, upsampling, filters, noise, splines and patches drawing; lossy encoder searches.
* Brotli (a parameter in C30), the CMS.
* Entropy coding is proved in layers.  C10-C16, C43 and C54 give the parts and C55 the whole stream; C08, C14, C20, C23, C44, C48 and C49
  are about the symbols and take the layer below as "delivers the tokens".
* Memory exhaustion except where a statement names it (C01, C38, C39); the C++ memory model below atomic operations (C24, C25).
* Big-endian paths and scalar-only (`HWY_SCALAR`) variants, unless a definition says otherwise.

## Where the code does not do what one would expect

Each of the first group is a theorem (a negation with a concrete witness); the second group was noticed while reading and is not proved.

Proved:

* C57: a JPEG file can be accepted for lossless recompression and come back with other bytes.  `DetectIccProfile` skips profile segments whose number is not the expected one and lets a first segment announce 0 parts; `ParseChunkedMarker` rejects both, the image gets the sRGB profile instead (with a warning only), and the decoder writes the number of typed segments, or the bytes of the sRGB profile if its length happens to fit, into the segments.  Two segments `E2 00 10 "ICC_PROFILE\0" 01 00` and `E2 00 10 "ICC_PROFILE\0" 02 02` are enough: the byte `00` comes back as `02`.
* C59: a JPEG file with DC coefficients beyond the range of 8 bits per sample is accepted and comes back different, without an error: the
  decoder clamps to +-2047 (4094 after two differences), and the encoder multiplies with the reciprocal of a step that it stored with 11
  bits, so that with 191 in the table 1000 becomes 1001.  With chroma prediction switched on such coefficients overflow an `int`.
* C60: with limits that forbid every word of one bit, `ComputeCodeLengths` shifts by a negative amount, although a comment says that this
  case is dealt with; if every word needs the greatest length, an assertion on the cost fails although the lengths are right.  (The
  tables of limits in the encoder allow symbol 0 a word of one bit.)
* C61: the fast lossless encoder writes the size of its alphabets with `Write(8, 256)`, a value of nine bits in a call that announces eight.
  The ninth bit lands in the bit of the next call, which is always set there, so nothing changes; the size written is 257, not 512 as the
  comment says (`C61_size_spills_into_set_bit`).
* C64: the decoder refuses a tree as endless if ANS is used and the histogram of the kinds of nodes has a single symbol that is not 0.  With LZ77 all leaves may be inside copies, so a valid stream can be refused (`C64_copied_leaves_refused`).
* C67: the fast lossless encoder is not lossless for some images of eight bits with three or four channels when all of the image is given at once (effort 1 of the public encoder). `detect_palette` marks free places of its hash table with the colour zero (enc_fast_lossless.cc:3771, 3781). If a black pixel is followed by a colour with the same hash (253 colours of three bytes, such as 172, 181, 1) and no black pixel follows, the collision is not noticed and black is sent as that colour. `C67_colour_lost` proves it for two pixels.
* C72: `PatchDictionary::Decode` and `Clear` empty `positions_` but neither `ref_positions_` nor `blendings_` (dec_patch_dictionary.cc:35, dec_patch_dictionary.h:119-122), and the object is shared by all frames of an image (dec_frame.cc:269-288, decode.cc:1138). From the second frame with patches on, patch `i` is blended with the `i`-th blending ever read, and `GetReferences` still reports the saved frames of earlier frames (`C72_second_frame_blended_wrong`). The encoder's own patches all have the same blending, which hides it.
* C73: `EncodeAllStartingPoints` casts the first starting point to `uint32_t` (enc_splines.cc:56-60) and the decoder reads it as unsigned (splines.cc:270-272); a first spline starting at a negative coordinate is written and the frame is refused (`C73_negative_start_refused`).
* C73: `Dequantize` adds `std::abs(current_delta_x) + std::abs(current_delta_y)` in `int` before the check of the deltas (splines.cc:464-470).  After an accepted step of 2^23 - 1 an accepted change of 2^30 - 1 makes the sum 2^31 + 2^24 - 4: signed overflow on an accepted stream (`C73_points_overflow`).  In practice the sum wraps to a negative number, becomes a huge distance and the frame is refused.
* C74: `EncodeBlockCtxMap` tests `ctx_map.size() == 21` before comparing with the default map (enc_context_map.cc:151), but maps have a multiple of 39 entries since there are 13 orders; the form of one bit is never written, the default map is stored in full (`C74_default_written_in_full`).  A missed shortcut, not an error.
* C75: `ColorCorrelationEncodeDC` asks for 1 + 2 * 8 + 12 + 32 = 61 bits (enc_chroma_from_luma.cc:399), but a colour factor of 258 or more takes 18 bits instead of 12, and all fields together 67 (`C75_allotment_exceeded`).  Latent: only the decoder calls `SetColorFactor`.
* C75: `EncodeNoise` refuses a table without a value above `1e-3f`, which is more than the step of 1/1024, so a table read from a stream may not be writable (`C75_noise_read_not_written`).
* C77: `ProcessDCGlobal` has the patches say whether they use extra channels (`uses_extra_channels`, not initialised) but never looks at the answer, so every frame with patches and subsampled colours is refused if an extra channel is subsampled otherwise (dec_frame.cc:272-285), although the message is about patches that use extra channels (`C77_subsampled_refused`).
* C78: `ClampedSize` adds before it compares, so the intersection of a rectangle with one within its size of 2^64 wraps around and is as large as the first one although they have no pixel in common (`C78_intersection_wraps`); no image is that large.
* C06: extensions of nested bundles are rejected; floats within 1E-6 of the default are replaced by it.  C04: negative zero loses its sign.
* C05: `Set` accepts sizes above 2^30 that cannot be written.
* C16: `num_decoded_` wraps at 2^32.
* C19: lossless palettes change images of 25 to 31 bits.
* C20, C21: a tree threshold of -8193 makes table and tree walk disagree, so encoder and decoder can choose different contexts;
  C20: the LZ77 distance multiplier differs if a channel has columns but no rows.
* C22: the limit on tree size allows one node more.
* C23: profiles whose tag offsets run over 2^32, and profiles with about 1020 bytes of commands or more, are refused by the decoder.
* C24: the fixed-size pool is wrong under spurious wake-ups; ranges near 2^32 call tasks outside the range; re-entry disables the pool.
* C27: the box header size test forgets the `jxlp` counter and compares the wrong value; mode 2 writes 16 bytes into 12.
* C28: skipping past the last span of a version 1 file gives an internal error; skipping during a box event eats the box header.
* C30: a shorter piece after a full output buffer is refused.
* C31: switching coalescing off between passes leaves a stale table.
* C32: no multiple of 2 KiB is avoided once vectors have 2 KiB.  C33: `00 01` is answered "not enough bytes".  C35: values of 2^63 and above lose a byte.
* C41: tick counts are cumulative.
* C42: normalisation can read past its table.
* C43: the hash-map encoder emits distances outside the decoder's window; the decoder then returns other values without an error.
* C45: refinement scans can overflow the output chunk by a few bytes.
* C46: a stop request is reported as success, once with unwritten bytes announced as finalised.
* C49: low frequencies are not hidden by the mask; general progressive modes lose bits; the 16-bit choice ignores pass shifts.
  None of these is reachable through the public API as far as we read it.
* C52: an empty Huffman segment counts as a definition of DC table 0.
* C55: a prefix code announcing 65536 symbols is accepted as a code of one symbol (the size is kept in 16 bits).
* C56: with 4 GiB or more after the end marker of a JPEG file a truncated size is written.

Read only, not proved:

* C10: with split exponent equal to the log alphabet size the config header drops fields (harmless).
* C18: the forward squeeze overflows for samples near 2^29; meta-channel squeezes announce mismatched shifts.
* C25: nothing checks that twice the padding fits a group.
* C13, C55: for an empty ANS histogram `ANSBuildInfoTable` writes to the first element of an empty vector.
* C44: the encoder does not check the depth and liveness conditions of the decoder.
* C51: baseline scans with Ah = Al = 15 are accepted; refinement scans without a first scan are accepted; `FF 00` across the last two bytes
  mis-positions the reader (the file is refused later).

## Trials with wrong programs

`seeded/LOG.jsonl` has one line per trial.  `caught` means the build of the edited copy failed in the named theorems.  A failing proof script
alone does not show that the statement became false; lines with a `counterexample` field were in addition checked by evaluating concrete cases
on which the edited model breaks the statement.  `survived` lines stay in the log.  Of these, `SkipFrames.savedAs`, `Huffman.simpleEntries`,
`Huffman.readSimple` and `MaTree.markNode` led to stronger theorems (later lines), as did `Histo.start` (`C42_balancing_symbol`); `Lehmer.readCodes`, `Toc.prefixSums`,
`Palette.insertSet`, `Icc.predictHeader`, `Jpeg.naturalOrder`, `Jpeg.scanMode`, `Jpeg.skipTo` and the two of `AcTokens.zeroDensityOffset`
do not change any claimed behaviour.
