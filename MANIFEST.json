{
 "claims": [
  {
   "property": "C01",
   "status": "proved",
   "theorems": [
    "Jxl.Props.C01_round_trip",
    "Jxl.Props.C01_no_failure",
    "Jxl.Props.C01_writer_refines"
   ],
   "note": "BitWriter (little-endian path) and BitReader on bytes with arbitrary fresh memory; failure only if the allocator fails"
  },
  {
   "property": "C02",
   "status": "proved",
   "theorems": [
    "Jxl.Props.C02_reader_refines"
   ],
   "note": "all buffers, all operation sequences with reads of at most 56 bits"
  },
  {
   "property": "C03",
   "status": "proved",
   "theorems": [
    "Jxl.Props.C03_bits",
    "Jxl.Props.C03_u32",
    "Jxl.Props.C03_distr_meaning",
    "Jxl.Props.C03_u64",
    "Jxl.Props.C03_enum"
   ],
   "note": "all four field coders"
  },
  {
   "property": "C04",
   "status": "proved",
   "theorems": [
    "Jxl.Props.C04_read_value",
    "Jxl.Props.C04_round_trip",
    "Jxl.Props.C04_write_value",
    "Jxl.Props.C04_negative_zero_lost"
   ],
   "note": "bit-pattern model; values as integers in units of 2^-149"
  },
  {
   "property": "C05",
   "status": "proved",
   "theorems": [
    "Jxl.Props.C05_size",
    "Jxl.Props.C05_size_limit",
    "Jxl.Props.C05_preview",
    "Jxl.Props.C05_preview_any",
    "Jxl.Props.C05_ratio"
   ],
   "note": "sizes above 2^30 are accepted by Set but not writable (C05_size_limit)"
  },
  {
   "property": "C06",
   "status": "partial",
   "theorems": [
    "Jxl.Props.C06_round_trip_partial",
    "Jxl.Props.C06_extensions_partial",
    "Jxl.Props.C06_nested_extensions_rejected",
    "Jxl.Props.C06_near_default_replaced"
   ],
   "note": "the code violates the claim for extensions of nested bundles and for floats within 1E-6 of the default (negations proved); everything else is covered"
  },
  {
   "property": "C07",
   "status": "proved",
   "theorems": [
    "Jxl.Props.C07_pack_value",
    "Jxl.Props.C07_bijection",
    "Jxl.Props.C07_small"
   ],
   "note": "PackSigned/UnpackSigned on all 32-bit values, against the arithmetic zig-zag map."
  },
  {
   "property": "C08",
   "status": "proved",
   "theorems": [
    "Jxl.Props.C08_round_trip",
    "Jxl.Props.C08_decodes_to_permutation",
    "Jxl.Props.C08_refuses",
    "Jxl.Props.C08_tokens_round_trip",
    "Jxl.Props.C08_tokens_permutation"
   ],
   "note": "Lehmer code with the Fenwick tree loops as written; n up to 2^30 (index arithmetic in 32 bits)."
  },
  {
   "property": "C09",
   "status": "proved",
   "theorems": [
    "Jxl.Props.C09_layout",
    "Jxl.Props.C09_overflow",
    "Jxl.Props.C09_frame_toc",
    "Jxl.Props.C09_round_trip"
   ],
   "note": "The entropy coding of the permutation is a parameter (hypothesis: it round trips; token form is C08)."
  },
  {
   "property": "C10",
   "status": "proved",
   "theorems": [
    "Jxl.Props.C10_round_trip",
    "Jxl.Props.C10_token_determines_length",
    "Jxl.Props.C10_injective",
    "Jxl.Props.C10_config",
    "Jxl.Props.C10_config_valid"
   ],
   "note": "All split exponents up to 31. With split exponent = log alphabet size the header drops the in-token bits; proved harmless for tokens of the alphabet."
  },
  {
   "property": "C11",
   "status": "proved",
   "theorems": [
    "Jxl.Props.C11_alias_partition",
    "Jxl.Props.C11_deterministic",
    "Jxl.Props.C11_no_zero_frequency"
   ],
   "note": "all distributions with sum 4096 and every table size 2^5..2^8; table memory contents before the call are arbitrary"
  },
  {
   "property": "C12",
   "status": "proved",
   "theorems": [
    "Jxl.Props.C12_round_trip",
    "Jxl.Props.C12_pieces",
    "Jxl.Props.C12_reciprocal"
   ],
   "note": "Whole token writer (reverse order, 56-bit pieces, context map, LZ77 length symbols, hybrid integers) against the decoder, with encoder tables built by the model of the table builder."
  },
  {
   "property": "C13",
   "status": "proved",
   "theorems": [
    "Jxl.Props.C13_round_trip",
    "Jxl.Props.C13_accepted_is_normalised",
    "Jxl.Props.C13_empty"
   ],
   "note": "Flat, one-symbol, two-symbol and general codes with run lengths; the decoder side covers every bit stream, with the zero bits the reader supplies past the end."
  },
  {
   "property": "C14",
   "status": "proved",
   "theorems": [
    "Jxl.Props.C14_move_to_front",
    "Jxl.Props.C14_inverse_total",
    "Jxl.Props.C14_decoded_map",
    "Jxl.Props.C14_round_trip"
   ],
   "note": "Includes the vectorised inverse for every vector length up to 64 bytes. The entropy coder of the symbols is a parameter with a losslessness hypothesis (its own round trip is C12)."
  },
  {
   "property": "C15",
   "status": "proved",
   "theorems": [
    "Jxl.Props.C15_table_decodes_canonical_code",
    "Jxl.Props.C15_words_prefix_free",
    "Jxl.Props.C15_encoder_writes_canonical_words",
    "Jxl.Props.C15_concatenation_decodes",
    "Jxl.Props.C15_only_complete_codes_accepted",
    "Jxl.Props.C15_reading_is_defined",
    "Jxl.Props.C15_simple_codes"
   ],
   "note": "BuildHuffmanTable is followed statement by statement (sorting, root fill by replication, doubling, second-level tables with NextTableBitSize, 16-bit links) with out-of-bounds stores as none; the size bound n+376 used by the decoder for its allocation is proved. The encoder side is ConvertBitDepthsToSymbols with the nibble table ReverseBits. The header reader is modelled completely; for simple codes only definedness is stated here."
  },
  {
   "property": "C16",
   "status": "proved",
   "theorems": [
    "Jxl.Props.C16_window_accesses_defined",
    "Jxl.Props.C16_decoder_expands",
    "Jxl.Props.C16_overflow_reported",
    "Jxl.Props.C16_checkpoint",
    "Jxl.Props.C16_not_beyond_counter"
   ],
   "note": "The window starts uninitialised; using an unwritten entry is undefined behaviour in the model, so the first theorem also shows that none is used. Checkpoints: restoring after at most 512 further reads is observationally exact. C16_not_beyond_counter shows the 2^32 bound of the second theorem is needed."
  },
  {
   "property": "C17",
   "status": "proved",
   "theorems": [
    "Jxl.Props.C17_round_trip",
    "Jxl.Props.C17_sample",
    "Jxl.Props.C17_applicable",
    "Jxl.Props.C17_check",
    "Jxl.Props.C17_type_code",
    "Jxl.Props.C17_type_code_all"
   ],
   "note": "Whole-image round trip with any vector width; samples are 32-bit with wrap-around as in the vector code. The forward transform of the scalar-only target uses signed subtraction (undefined on overflow) and is not modelled."
  },
  {
   "property": "C18",
   "status": "proved",
   "theorems": [
    "Jxl.Props.C18_row_round_trip",
    "Jxl.Props.C18_columns_round_trip",
    "Jxl.Props.C18_row_defined",
    "Jxl.Props.C18_lane",
    "Jxl.Props.C18_vector_is_scalar",
    "Jxl.Props.C18_image_round_trip",
    "Jxl.Props.C18_announced_channels",
    "Jxl.Props.C18_default_round_trip",
    "Jxl.Props.C18_default_terminates"
   ],
   "note": "Rows, columns, channels, channel lists with any squeeze parameters; scalar and vector inverse; overflow of the forward direction is the outcome none. Announced sizes proved for squeezes of non-meta channels."
  },
  {
   "property": "C19",
   "status": "proved",
   "theorems": [
    "Jxl.Props.C19_values",
    "Jxl.Props.C19_small_cube",
    "Jxl.Props.C19_large_cube",
    "Jxl.Props.C19_decode",
    "Jxl.Props.C19_layout",
    "Jxl.Props.C19_round_trip_partial",
    "Jxl.Props.C19_deep_violated"
   ],
   "note": "Values and whole-image decoding for all indices, sizes and depths up to 31, any predictor. Beyond the stated property: the layout the decoder prepares is undone exactly, and the lossless encoder round-trips for one channel or depth at most 24; C19_deep_violated shows that deeper images change (encoder takes implicit colours at full depth, decoder at 24 bits). Lossy palette search and predictors not modelled."
  },
  {
   "property": "C20",
   "status": "partial",
   "theorems": [
    "Jxl.Props.C20_channel_partial",
    "Jxl.Props.C20_encodes",
    "Jxl.Props.C20_refusal",
    "Jxl.Props.C20_image_partial",
    "Jxl.Props.C20_boundary_witness",
    "Jxl.Props.C20_width_partial",
    "Jxl.Props.C20_width_witness"
   ],
   "note": "All loops of EncodeModularChannelMAANS and DecodeModularChannelMAANS (skip_encoder_fast_path false, its only value), any well-formed tree, offsets, multipliers, predictors, earlier channels, and the channel loops of ModularCompress and ModularDecode; the entropy coder is any reader that delivers the tokens. Leaf contexts are assumed below 65536. The statement fails when a tree splits the predictor error at -8193 and the channel is at most 8 wide or LZ77 is used (C20_boundary_witness); C20_width_witness: the LZ77 distance multipliers differ if a channel has columns but no rows"
  },
  {
   "property": "C21",
   "status": "partial",
   "theorems": [
    "Jxl.Props.C21_flattened",
    "Jxl.Props.C21_evaluator_choice",
    "Jxl.Props.C21_lookup_table_partial",
    "Jxl.Props.C21_lookup_table_boundary",
    "Jxl.Props.C21_decoded_trees_qualify"
   ],
   "note": "Filtering, flattening and the two-level lookup: proved in full. Lookup table: proved except for property values below -8192 in trees with the threshold -8193, where it is false (negation proved): the table accepts such a tree but the clamped value takes the other side."
  },
  {
   "property": "C22",
   "status": "proved",
   "theorems": [
    "Jxl.Props.C22_decoded_tree",
    "Jxl.Props.C22_one_node_more"
   ],
   "note": "Every sequence of symbols, through an abstract symbol reader. C22_one_node_more: the size limit is checked before a node is added, so limit + 1 nodes are possible, as in the theorem."
  },
  {
   "property": "C23",
   "status": "proved",
   "theorems": [
    "Jxl.Props.C23_encoder_total",
    "Jxl.Props.C23_round_trip",
    "Jxl.Props.C23_decoder_safe",
    "Jxl.Props.C23_reader",
    "Jxl.Props.C23_reader_safe",
    "Jxl.Props.C23_refused",
    "Jxl.Props.C23_commands_refused"
   ],
   "note": "PredictICC, UnpredictICC and the checks of ICCReader on bytes; the refused class is described exactly (tag offsets running over 2^32; and the checks of the reader, of which the one on the commands refuses ordinary profiles with many tags). The entropy coder in between is taken to deliver the bytes (see the ANS and token properties); truncated input is not modelled."
  },
  {
   "property": "C24",
   "status": "partial",
   "theorems": [
    "Jxl.Props.C24_fixed_pool_partial",
    "Jxl.Props.C24_fixed_pool_spurious_wakeup",
    "Jxl.Props.C24_fixed_pool_wraps",
    "Jxl.Props.C24_reentry_disables_pool",
    "Jxl.Props.C24_fixed_pool_entry",
    "Jxl.Props.C24_resizable_pool_partial",
    "Jxl.Props.C24_resizable_pool_wraps",
    "Jxl.Props.C24_resizable_pool_reversed"
   ],
   "note": "Every interleaving of the atomic steps and critical sections, any number of workers and runs, including absence of deadlock; the resizable pool with spurious wake-ups and resizing. The fixed-size pool is correct only without spurious wake-ups of condition variables: with them Runner can return while a task is running (negation proved). Ranges must keep a distance from 2^32 (stated exactly); near it tasks outside the range are called (negations proved)."
  },
  {
   "property": "C25",
   "status": "proved",
   "theorems": [
    "Jxl.Props.C25_exactly_once",
    "Jxl.Props.C25_rounds",
    "Jxl.Props.C25_ready",
    "Jxl.Props.C25_safe"
   ],
   "note": "All frame dimensions, all interleavings of the atomic corner updates (sequentially consistent order per run), all histories of complete runs and ClearDone resets. Assumes twice the padding is at most the group side (the code does not check it; the sides are at least 128). \"Ready\" means the neighbouring group has begun announcing completion; that its pixel writes are visible then is the acquire/release meaning of fetch_or, which is not modelled."
  },
  {
   "property": "C26",
   "status": "proved",
   "theorems": [
    "Jxl.Props.C26_groups",
    "Jxl.Props.C26_dc_groups",
    "Jxl.Props.C26_block_groups",
    "Jxl.Props.C26_sizes",
    "Jxl.Props.C26_nesting"
   ],
   "note": "frame dimensions and group rectangles for every admissible size, upsampling and group size"
  },
  {
   "property": "C27",
   "status": "partial",
   "theorems": [
    "Jxl.Props.C27_round_trip_partial",
    "Jxl.Props.C27_bounded_boxes",
    "Jxl.Props.C27_accepted",
    "Jxl.Props.C27_need_more",
    "Jxl.Props.C27_stable",
    "Jxl.Props.C27_frame_box_partial",
    "Jxl.Props.C27_short_header_fails",
    "Jxl.Props.C27_counter_forgotten",
    "Jxl.Props.C27_mode2_overrun"
   ],
   "note": "The code violates the claim for sizes near 2^32 and for the one-shot fallback of output mode 2 (negations proved); the rest is covered."
  },
  {
   "property": "C28",
   "status": "partial",
   "theorems": [
    "Jxl.Props.C28_safe",
    "Jxl.Props.C28_spans",
    "Jxl.Props.C28_need",
    "Jxl.Props.C28_done",
    "Jxl.Props.C28_refused",
    "Jxl.Props.C28_errors",
    "Jxl.Props.C28_progress",
    "Jxl.Props.C28_chunking",
    "Jxl.Props.C28_internal_witness",
    "Jxl.Props.C28_skip_in_box_event_witness"
   ],
   "note": "Any interleaving of new input, box-loop iterations and parser operations, against a whole-file reading of the container. The statement fails in two ways, each shown by a concrete session: skipping beyond the last span in a version 1 file can end in an internal error, and skipping a frame while a box event is pending eats the box header (excluded from the legal sessions). Not modelled: the JPEG reconstruction box, metadata box contents (C30), what follows the end of the codestream, allocation failure."
  },
  {
   "property": "C29",
   "status": "proved",
   "theorems": [
    "Jxl.Props.C29_any_order",
    "Jxl.Props.C29_permutation",
    "Jxl.Props.C29_duplicates",
    "Jxl.Props.C29_version0",
    "Jxl.Props.C29_decoder"
   ],
   "note": "Byte strings of files with boxes of known 32-bit size, any other boxes between them; C29_decoder carries the result to every decoder session through C28. Boxes of unknown size (extending to the end of the file) are covered by C28 only. A session can still end in the buffer limit or, after skipping beyond a span, in the internal error of C28_internal_witness."
  },
  {
   "property": "C30",
   "status": "proved",
   "theorems": [
    "Jxl.Props.C30_uncompressed",
    "Jxl.Props.C30_until_end_of_file",
    "Jxl.Props.C30_failure",
    "Jxl.Props.C30_compressed",
    "Jxl.Props.C30_shorter_piece_refused"
   ],
   "note": "Brotli is a parameter that only has to respect its interface (consume at most the input, write at most the space). C30_failure characterises errors exactly; C30_shorter_piece_refused shows that a caller who offers a shorter piece after a full output buffer is refused."
  },
  {
   "property": "C31",
   "status": "partial",
   "theorems": [
    "Jxl.Props.C31_masks",
    "Jxl.Props.C31_dependencies",
    "Jxl.Props.C31_skipping_keeps_needed",
    "Jxl.Props.C31_target",
    "Jxl.Props.C31_coalescing_change_fails"
   ],
   "note": "Proved for every history of decoding, skipping, abandoning and rewinding with an unchanged coalescing setting; fails (negation proved) if coalescing is switched off between passes, because the picture-number table is kept."
  },
  {
   "property": "C32",
   "status": "partial",
   "theorems": [
    "Jxl.Props.C32_checked",
    "Jxl.Props.C32_stride_partial",
    "Jxl.Props.C32_stride_refused",
    "Jxl.Props.C32_aligned",
    "Jxl.Props.C32_plane",
    "Jxl.Props.C32_two_kib_fails"
   ],
   "note": "All parts proved except that strides are multiples of 2 KiB when vectors have 2 KiB or more (negation proved)."
  },
  {
   "property": "C33",
   "status": "partial",
   "theorems": [
    "Jxl.Props.C33_stable",
    "Jxl.Props.C33_recognises",
    "Jxl.Props.C33_position",
    "Jxl.Props.C33_not_enough_partial",
    "Jxl.Props.C33_exactness_fails"
   ],
   "note": "\"Not enough bytes\" is also answered for 00 01.., which no file starts with (negation proved)."
  },
  {
   "property": "C34",
   "status": "proved",
   "theorems": [
    "Jxl.Props.C34_stream",
    "Jxl.Props.C34_same_bytes",
    "Jxl.Props.C34_boxes",
    "Jxl.Props.C34_finalised_unaltered",
    "Jxl.Props.C34_copy_output"
   ],
   "note": "JxlEncoderProcessOutput with any schedule of buffers; the inputs are sequences of output operations (copying loops, exact pieces, seeks, finalisations) following the rules of encode_internal.h; stream positions do not wrap and allocation succeeds"
  },
  {
   "property": "C35",
   "status": "partial",
   "theorems": [
    "Jxl.Props.C35_decode",
    "Jxl.Props.C35_truncated",
    "Jxl.Props.C35_bounds",
    "Jxl.Props.C35_encode_buffer",
    "Jxl.Props.C35_encode_icc_partial",
    "Jxl.Props.C35_top_bit_lost"
   ],
   "note": "Values of 2^63 and above lose their last byte in the ICC encoder (negation proved)."
  },
  {
   "property": "C36",
   "status": "proved",
   "theorems": [
    "Jxl.Props.C36_writer",
    "Jxl.Props.C36_round_trip",
    "Jxl.Props.C36_writer_safe",
    "Jxl.Props.C36_jump",
    "Jxl.Props.C36_marker"
   ],
   "note": "Any number of segments with restart markers, any codes, reads cut up differently from the writes, default or custom padding. Codes must fit their stated length (at most 64 bits); what precedes the scan must not end in 0xFF and a marker must follow, as in every JPEG file. Includes the 64-bit test for zero bytes."
  },
  {
   "property": "C37",
   "status": "proved",
   "theorems": [
    "Jxl.Props.C37_dimensions",
    "Jxl.Props.C37_output",
    "Jxl.Props.C37_injective",
    "Jxl.Props.C37_buffer",
    "Jxl.Props.C37_external"
   ],
   "note": "Both implementations, with the chunking, the in-place swap loop and any delivery order of row segments. Sample conversion is not modelled."
  },
  {
   "property": "C38",
   "status": "proved",
   "theorems": [
    "Jxl.Props.C38_ownership",
    "Jxl.Props.C38_no_leak",
    "Jxl.Props.C38_manager_accepted"
   ],
   "note": "Every history of AlignedMemory and PaddedBytes operations, with an allocator that may fail at any time and may reuse freed addresses. Contents and alignment are in C32 and C01."
  },
  {
   "property": "C39",
   "status": "proved",
   "theorems": [
    "Jxl.Props.C39_vector",
    "Jxl.Props.C39_success"
   ],
   "note": "allocator is an oracle; self-aliasing append not modelled"
  },
  {
   "property": "C40",
   "status": "proved",
   "theorems": [
    "Jxl.Props.C40_natural_order",
    "Jxl.Props.C40_all_strategies",
    "Jxl.Props.C40_decoded",
    "Jxl.Props.C40_round_trip"
   ],
   "note": "Orders are lists of naturals; the entropy-coded integers are the input. For every size with longer side = shorter side * 2^k (all 27 strategies, checked on the whole table) the natural order is the zigzag permutation with low frequencies first and the table is its inverse in both directions; decoding any integers stays in bounds and leaves good orders in the slices of all transforms in use; written orders read back."
  },
  {
   "property": "C41",
   "status": "partial",
   "theorems": [
    "Jxl.Props.C41_frame_index_partial",
    "Jxl.Props.C41_ticks_fail"
   ],
   "note": "The durations written differ from the documented ones (negation proved)."
  },
  {
   "property": "C42",
   "status": "partial",
   "theorems": [
    "Jxl.Props.C42_normalised_is_storable_partial",
    "Jxl.Props.C42_balancing_symbol",
    "Jxl.Props.C42_normalisation_leaves_table"
   ],
   "note": "Proved: a finished normalisation sums to 4096, is representable at its precision and is stored losslessly. The full claim fails (negation proved): a histogram of 256 symbols makes the loop take the last count of an occurring symbol and read past the table."
  },
  {
   "property": "C43",
   "status": "partial",
   "theorems": [
    "Jxl.Props.C43_run_lengths_lossless",
    "Jxl.Props.C43_hash_map_lossless_partial",
    "Jxl.Props.C43_far_matches_lost"
   ],
   "note": "Run lengths: proved in full. Hash map: proved for up to 2^20 values; the full claim fails (negation proved): its matches are not limited to the decoder window, so with 2^20+9 values the output decodes to other values without an error. The hash chain of the optimal parser is not modelled."
  },
  {
   "property": "C44",
   "status": "proved",
   "theorems": [
    "Jxl.Props.C44_tree_round_trip"
   ],
   "note": "The symbols are (context, value) pairs; their entropy coding is C10-C16. The encoder does not check the two conditions under which the decoder refuses the tree."
  },
  {
   "property": "C45",
   "status": "partial",
   "theorems": [
    "Jxl.Props.C45_sequential",
    "Jxl.Props.C45_first_scan",
    "Jxl.Props.C45_refinement_partial",
    "Jxl.Props.C45_refinement_overflow",
    "Jxl.Props.C45_overflow_position"
   ],
   "note": "Sequential and first progressive scans: proved in full. Refinement scans: proved when at most 916 refinement bits of earlier blocks are waiting before each block; false in general (negation proved): 152 admissible blocks make the writer store five bytes behind its 16384 byte chunk."
  },
  {
   "property": "C46",
   "status": "partial",
   "theorems": [
    "Jxl.Props.C46_no_seek_partial",
    "Jxl.Props.C46_seek_partial",
    "Jxl.Props.C46_boxes_partial",
    "Jxl.Props.C46_stop_reported_as_success",
    "Jxl.Props.C46_finalised_but_unwritten"
   ],
   "note": "Protocol and contents proved for all answers without seek and for all answers without a stop request with seek. The clause that a stop request makes the library return an error is false in the code: two concrete cases end in success, one of them having announced unwritten bytes as finalised"
  },
  {
   "property": "C47",
   "status": "proved",
   "theorems": [
    "Jxl.Props.C47_safe",
    "Jxl.Props.C47_column_needed"
   ],
   "note": "Sessions of predictions and updates with arbitrary 32-bit neighbours and samples, any order of pixels; header fields in the ranges of their bit fields; the column lies in the row"
  },
  {
   "property": "C48",
   "status": "proved",
   "theorems": [
    "Jxl.Props.C48_safe",
    "Jxl.Props.C48_accepted",
    "Jxl.Props.C48_round_trip",
    "Jxl.Props.C48_visits"
   ],
   "note": "Region of any size, any lists, any tiling. The colour correlation maps and the entropy coding of the metadata channels are not part of this model; that the encoder search only produces tilings is assumed in the round trip."
  },
  {
   "property": "C49",
   "status": "proved",
   "theorems": [
    "Jxl.Props.C49_round_trip",
    "Jxl.Props.C49_decoder_safe",
    "Jxl.Props.C49_split",
    "Jxl.Props.C49_progressive",
    "Jxl.Props.C49_narrow_enough",
    "Jxl.Props.C49_symbol_bits",
    "Jxl.Props.C49_split_loses_bits",
    "Jxl.Props.C49_narrow_wraps",
    "Jxl.Props.C49_low_frequency_refused"
   ],
   "note": "All of TokenizeCoefficients, DecodeACVarBlock, LoadBlock and SplitACCoefficients; tokens are pairs of context and value (entropy coding: C10-C16). The low frequencies of larger transforms are assumed zero in the array, as the quantizer leaves them; C49_low_frequency_refused shows that the mask meant to hide them does not work. Modes whose refinements do not cover what they refine lose bits (C49_split_loses_bits), and shifts of two or more can make the 16-bit choice wrong (C49_narrow_wraps); neither is offered through the API."
  },
  {
   "property": "C50",
   "status": "proved",
   "theorems": [
    "Jxl.Props.C50_build_safe",
    "Jxl.Props.C50_writer_codes",
    "Jxl.Props.C50_read_rewrites",
    "Jxl.Props.C50_written_reads"
   ],
   "note": "Model of the DHT parser, the two-level lookup table, symbol reading and the writer code assignment. The marker segment is handed over already split into counts and values; reading is shown for data followed by a marker."
  },
  {
   "property": "C51",
   "status": "partial",
   "theorems": [
    "Jxl.Props.C51_rebuilt_partial",
    "Jxl.Props.C51_rebuilt_unrefined",
    "Jxl.Props.C51_bits_kept"
   ],
   "note": "DecodeDCTBlock, RefineDCTBlock, ProcessRestart and ProcessScan (with the overlap masks) against DoEncodeScan. The order of blocks, which both sides compute with the same formulas from the headers, is a shared list; headers and marker segments are not part of the model, a scan must not begin right after a byte 255. Missing for the full statement: with refinement scans the writer is assumed to complete, since it can leave its output chunk (C45); without refinement scans completion is proved for DC coefficients of at most 11 bits."
  },
  {
   "property": "C52",
   "status": "partial",
   "theorems": [
    "Jxl.Props.C52_rebuilt_partial",
    "Jxl.Props.C52_rebuilt_unrefined",
    "Jxl.Props.C52_told_apart",
    "Jxl.Props.C52_empty_table_refused"
   ],
   "note": "All marker segments, the marker loop, the order of blocks on both sides, scans and padding bits. The statement fails: an empty segment of Huffman tables counts as a definition of DC table 0, so a refinement scan naming it is accepted and then refused by the writer (C52_empty_table_refused); such files are excluded, and so are baseline scans whose header ends in a byte 255. With refinement scans the writer is assumed to stay in its output chunk (C45); without them completion is proved for DC coefficients up to 2047. The serialisation of the data between reader and writer is not part of this model."
  },
  {
   "property": "C53",
   "status": "proved",
   "theorems": [
    "Jxl.Props.C53_safe",
    "Jxl.Props.C53_accepted"
   ],
   "note": "The model of ReadJpeg with all marker segments; undefined loads, missing table entries and running out of rounds are all the outcome none. Memory use and 32-bit overflow of image dimensions are not part of the model."
  },
  {
   "property": "C54",
   "status": "partial",
   "theorems": [
    "Jxl.Props.C54_prefix_codes_read_back_partial"
   ],
   "note": "All of enc_huffman_tree.cc and enc_huffman.cc against dec_huffman.cc. Missing: more than 1292 different symbols or a total count above 2^30, where the 32-bit sums of raised counts or the 16-bit node indices (more than 16384 symbols) of the code may overflow."
  },
  {
   "property": "C55",
   "status": "partial",
   "theorems": [
    "Jxl.Props.C55_round_trip_partial",
    "Jxl.Props.C55_any_bits",
    "Jxl.Props.C55_oversized_alphabet"
   ],
   "note": "DecodeHistograms, DecodeContextMap and ANSSymbolReader as a whole against BuildAndEncodeHistograms, EncodeContextMap and WriteTokens, made of the models of C10-C16, C43 and C54. What the encoder decides by cost is an arbitrary sound choice. The statement fails in one place: an announced alphabet of 65536 symbols wraps to zero and is accepted as a code of one symbol (C55_oversized_alphabet). Missing: prefix codes beyond the limits of C54; histograms not covered by C13; reads past the end of the stream are refusals here, where the code supplies zeros and fails later."
  },
  {
   "property": "C56",
   "status": "partial",
   "theorems": [
    "Jxl.Props.C56_recon_read_back_partial",
    "Jxl.Props.C56_any_bits_safe",
    "Jxl.Props.C56_accepted_iff_sound",
    "Jxl.Props.C56_sound_written",
    "Jxl.Props.C56_long_tail_not_read_back"
   ],
   "note": "JPEGData::VisitFields, once for writing and once for reading. The statement fails in one place, proved with a witness: the size of the bytes after the end marker is converted to 32 bits before it is checked, so with 4 GiB and more another size is written and read back. The contents of segments (a Brotli stream) are not part of this property."
  },
  {
   "property": "C57",
   "status": "partial",
   "theorems": [
    "Jxl.Props.C57_metadata_rebuilt_partial",
    "Jxl.Props.C57_profile_iff_intact",
    "Jxl.Props.C57_encoder_safe",
    "Jxl.Props.C57_any_data_safe",
    "Jxl.Props.C57_wrong_count_not_rebuilt",
    "Jxl.Props.C57_stray_part_not_rebuilt"
   ],
   "note": "DetectIccProfile, DetectBlobs, ParseChunkedMarker, SetBlobsFromJpegData, EncodeJPEGData, DecodeJPEGData after the bundle, SetJPEGDataFromICC, SetExif, SetXmp. The statement fails for some files whose profile segments are misnumbered, proved with two witnesses: DetectIccProfile accepts them while ParseChunkedMarker rejects them, so the decoder writes other bytes than the original ones. Proved for all files whose profile is intact or absent. The compressed stream is given by its contents (Brotli is outside the model)."
  },
  {
   "property": "C58",
   "status": "partial",
   "theorems": [
    "Jxl.Props.C58_file_rebuilt_partial",
    "Jxl.Props.C58_file_rebuilt_unrefined",
    "Jxl.Props.C58_encoder_safe",
    "Jxl.Props.C58_block_sizes"
   ],
   "note": "Missing: files of 4 GiB or with 2^32 padding bits, files whose colour profile is not intact (C57 shows that some are not rebuilt), the scans excluded in C52; where the writer of C52 has undefined behaviour (DC coefficients of more than 11 bits) the first theorem says nothing. DC coefficients are required to be in the range of 8 bits per sample (C59 shows what happens beyond). The entropy coding of the codestream is not composed in; the codestream is taken to carry sizes, modes, tables, colour maps and coded integers exactly."
  },
  {
   "property": "C59",
   "status": "partial",
   "theorems": [
    "Jxl.Props.C59_block_back",
    "Jxl.Props.C59_dc_exact",
    "Jxl.Props.C59_dc_changed",
    "Jxl.Props.C59_file_changed",
    "Jxl.Props.C59_dc_clamped",
    "Jxl.Props.C59_overflow"
   ],
   "note": "The property fails for DC coefficients beyond the range of 8 bits per sample (C59_file_changed, C59_dc_clamped: files accepted and returned with other bytes) and, with chroma prediction, for overflow (C59_overflow). Proved for coefficients of at most 11 bits whose DC times the table entry is at most 1024 plus one step. The floating-point operations are replaced by error bounds."
  },
  {
   "property": "C60",
   "status": "partial",
   "theorems": [
    "Jxl.Props.C60_lengths_are_best",
    "Jxl.Props.C60_no_short_word_undefined",
    "Jxl.Props.C60_cost_is_finite",
    "Jxl.Props.C60_cost_taken_for_infinite"
   ],
   "note": "Missing, because it fails: limits that forbid every word of one bit (C60_no_short_word_undefined: undefined shift, contrary to the comment in the code). Builds with assertions stop where all words need the greatest length (C60_cost_taken_for_infinite); C60_cost_is_finite covers the other cases. The assertion that the precision is below 15 is not modelled."
  },
  {
   "property": "C61",
   "status": "proved",
   "theorems": [
    "Jxl.Props.C61_code_read_back",
    "Jxl.Props.C61_counters_suffice",
    "Jxl.Props.C61_words_fit_tables",
    "Jxl.Props.C61_pair_at_14_bits",
    "Jxl.Props.C61_pairs_beyond_14_bits",
    "Jxl.Props.C61_size_spills_into_set_bit"
   ],
   "note": "The limits of the four ranges of bit depths, the counters, the constructor of PrefixCode, ComputeCanonicalCode, WriteTo and BitWriter::Write with its spilling of values that do not fit. Not modelled: the cache of short LZ77 codes, the changes to the counters of the palette, the size of the buffer."
  },
  {
   "property": "C62",
   "status": "proved",
   "theorems": [
    "Jxl.Props.C62_section_read_back",
    "Jxl.Props.C62_counters_suffice"
   ],
   "note": "Both codings of integers, the cache of short lengths, EncodeRle, Chunk, ProcessChunk from the residuals on, ProcessRow, Finalize, the header of the pixel data, and the whole decoder of C55. The code without vector instructions; not modelled: the vector versions of EncodeChunk, the predictor (residuals are given), the tree before the header, the size of the buffer."
  },
  {
   "property": "C63",
   "status": "proved",
   "theorems": [
    "Jxl.Props.C63_group_lossless",
    "Jxl.Props.C63_vector_code"
   ],
   "note": "WriteACSection, ProcessImageArea and the FillRow functions without vector instructions, residuals of the scalar and of the vector code, then C62 for the bits, C20 for the modular decoder with the tree the encoder writes, and C17 for the colour transform. The tree and the group header are given as values, not as bits; not modelled: the palette, the vector versions of FillRow and StoreYCoCg, the size of the output buffer, frame and image headers."
  },
  {
   "property": "C64",
   "status": "partial",
   "theorems": [
    "Jxl.Props.C64_round_trip_partial",
    "Jxl.Props.C64_any_bits",
    "Jxl.Props.C64_copied_leaves_refused"
   ],
   "note": "C44 for the tokens composed with C55 for the stream. Partial: with ANS and LZ77 together the histogram of the kinds of nodes must show a leaf; C64_copied_leaves_refused gives a sound stream without one that the decoder refuses. Statistics are those of C55. That the encoder itself ever chooses such a stream is not claimed."
  },
  {
   "property": "C65",
   "status": "proved",
   "theorems": [
    "Jxl.Props.C65_round_trip",
    "Jxl.Props.C65_refused_iff",
    "Jxl.Props.C65_any_bits",
    "Jxl.Props.C65_rewrite",
    "Jxl.Props.C65_unknown_kind"
   ],
   "note": "Fields of the three bundles in the order of VisitFields with their checks; the generic bundle code is that of C05 and C06, here applied directly. Not modelled: the extra state of a Transform that is not stored, and the reader running past the end (reading fails at once)."
  },
  {
   "property": "C66",
   "status": "partial",
   "theorems": [
    "Jxl.Props.C66_round_trip_partial"
   ],
   "note": "C65, C64, C55, C20, C17, C18 and C19 composed. Partial: the conditions of C64 (LeavesShown), C20 (no split of the weighted error at -8193, or wide channels without LZ77) and C19 (palettes of several channels only up to 24 bits); at most 131072 nodes, since flat trees keep contexts in 16 bits; no channel with columns but no rows; all channels in this stream and one of them not empty (with none the decoder stops before the tree the encoder writes); squeezes are undone without vectors and do not touch meta channels. Truncated streams, delta palettes and the lossy encoder are not modelled."
  },
  {
   "property": "C67",
   "status": "partial",
   "theorems": [
    "Jxl.Props.C67_palette_partial",
    "Jxl.Props.C67_grey",
    "Jxl.Props.C67_colour_lost"
   ],
   "note": "The code violates the property: C67_colour_lost shows an image of two pixels (black, then red 172, green 181, blue 1) whose first pixel is sent as the second colour, because an empty place of the hash table is marked by the colour zero and 253 colours of three bytes share the place of zero. Proved: all pixels other than zero always, all pixels if no other colour of the image shares that place, and without condition for one or two channels. Sorting by luma is any permutation. The coding of the palette and the indices as bits is not part of this property."
  },
  {
   "property": "C68",
   "status": "proved",
   "theorems": [
    "Jxl.Props.C68_small",
    "Jxl.Props.C68_large"
   ],
   "note": "Sections as bits, from the caller's buffer to the channels of the frame or of the group before they are converted to the output format. The codes come from counters as in C61 and C62. Images with a palette are in C69. Not modelled: the frame header and the table of contents, joining of the sections (their order is fixed by C08 and C09 in the model of the table of contents), the conversion of a group to the output format, truncated sections, more than one pass."
  },
  {
   "property": "C69",
   "status": "partial",
   "theorems": [
    "Jxl.Props.C69_small_partial",
    "Jxl.Props.C69_large_partial",
    "Jxl.Props.C69_counters_suffice"
   ],
   "note": "Proved for one and two channels; with three or four channels for all images in which no other colour shares the place of the colour zero in the hash table: otherwise the statement is false (C67_colour_lost). Sections as bits, from the caller's buffer to the channels of the whole frame before they are converted to the output format. Not modelled: the frame header and the table of contents, images given to the encoder in pieces (no palette is used then), truncated sections, more than one pass."
  },
  {
   "property": "C70",
   "status": "proved",
   "theorems": [
    "Jxl.Props.C70_header",
    "Jxl.Props.C70_every_sample_once",
    "Jxl.Props.C70_all_sections",
    "Jxl.Props.C70_resolution",
    "Jxl.Props.C70_streams",
    "Jxl.Props.C70_section_streams"
   ],
   "note": "The first section is any bits accepted by the decoder of modular streams (with the transforms announced there, none undone yet) for a frame of colour channels (possibly subsampled) and extra channels. C70_all_sections takes from each section what the encoder cuts out for it (that a modular stream gives back its image is C66). Not modelled: parts of sections (truncated input), filling of passes that have not come with zeros, the conversion to the output format, low frequencies and metadata of frames coded with the DCT."
  },
  {
   "property": "C71",
   "status": "proved",
   "theorems": [
    "Jxl.Props.C71_rows"
   ],
   "note": "Patches are given by their first row and their number of rows (at least one, as the decoder reads a size minus one). std::sort is any function that sorts. Not modelled: the blending of the pixels."
  },
  {
   "property": "C72",
   "status": "partial",
   "theorems": [
    "Jxl.Props.C72_round_trip_partial",
    "Jxl.Props.C72_any_bits",
    "Jxl.Props.C72_second_frame_blended_wrong"
   ],
   "note": "The blendings are as the encoder said only if the object that holds the dictionary had none before; for a second frame with patches this is false (C72_second_frame_blended_wrong). Places and sources are right in every frame. The limits the decoder puts on the number of sources, patches and blendings are conditions; the encoder does not check them. Not modelled: the blending of the pixels, whether the flag for extra channels is set (its caller does not look at it), what the code does after the end of truncated bits before it notices."
  },
  {
   "property": "C73",
   "status": "partial",
   "theorems": [
    "Jxl.Props.C73_round_trip_partial",
    "Jxl.Props.C73_any_bits",
    "Jxl.Props.C73_points",
    "Jxl.Props.C73_points_defined_partial",
    "Jxl.Props.C73_negative_start_refused",
    "Jxl.Props.C73_points_overflow"
   ],
   "note": "The first spline must not start left of or above the picture: such splines are written and then refused (C73_negative_start_refused). Computing control points is not defined for all accepted splines: a sum overflows (C73_points_overflow); it is defined if no change of a step is within 2^23 of the limit. The quantisation of coefficients and the estimate of the area, by which splines may be refused, are floating point and not modelled."
  },
  {
   "property": "C74",
   "status": "proved",
   "theorems": [
    "Jxl.Props.C74_round_trip",
    "Jxl.Props.C74_any_bits",
    "Jxl.Props.C74_lookup",
    "Jxl.Props.C74_any_assignment",
    "Jxl.Props.C74_default_written_in_full"
   ],
   "note": "What the encoder chooses for the stored entries (form, nested streams) is any sound choice. The test for the default map can never succeed (C74_default_written_in_full), which costs bits but loses nothing."
  },
  {
   "property": "C75",
   "status": "partial",
   "theorems": [
    "Jxl.Props.C75_quantiser",
    "Jxl.Props.C75_quantiser_any_bits",
    "Jxl.Props.C75_correlation",
    "Jxl.Props.C75_correlation_any_bits",
    "Jxl.Props.C75_allotment_partial",
    "Jxl.Props.C75_allotment_exceeded",
    "Jxl.Props.C75_noise",
    "Jxl.Props.C75_noise_exact",
    "Jxl.Props.C75_noise_refused",
    "Jxl.Props.C75_noise_limit",
    "Jxl.Props.C75_noise_read_not_written"
   ],
   "note": "Partial: the bits reserved for the colour correlation suffice only for factors below 258 (C75_allotment_exceeded; the encoder itself sets no other factor than 84). Noise values are exact multiples of 2^-149. The encoder refuses some noise tables that a decoder reads (C75_noise_read_not_written). Rounding a value to half precision is that of C04."
  },
  {
   "property": "C76",
   "status": "proved",
   "theorems": [
    "Jxl.Props.C76_tables",
    "Jxl.Props.C76_tables_any_bits",
    "Jxl.Props.C76_dc",
    "Jxl.Props.C76_dc_any_bits",
    "Jxl.Props.C76_zero_written_not_read"
   ],
   "note": "Tables given pixel by pixel are modular images (C66) and enter as given functions with a given condition. Scaling by 64 and 128 is exact on the numbers of the format and modelled on patterns. The encoder does not test the limits: what lies outside may be written and then refused (C76_zero_written_not_read). Not modelled: computing the weights of all coefficients from the tables."
  },
  {
   "property": "C77",
   "status": "partial",
   "theorems": [
    "Jxl.Props.C77_round_trip_partial",
    "Jxl.Props.C77_any_bits",
    "Jxl.Props.C77_image_partial",
    "Jxl.Props.C77_image_any_bits",
    "Jxl.Props.C77_subsampled_refused"
   ],
   "note": "Round trip and any bits for all combinations of parts, for one frame and for any sequence of frames of an image.  Missing: the modular part of the section; blendings of patches if some are left over from an earlier frame (C72) and curves whose first starts left of or above the picture (C73), for which the property does not hold.  C77_subsampled_refused: frames with patches are refused if extra channels are subsampled otherwise than the colours, even if the patches do not use them, because what was found out about that is not asked for."
  },
  {
   "property": "C78",
   "status": "partial",
   "theorems": [
    "Jxl.Props.C78_intersection_partial",
    "Jxl.Props.C78_crop_partial",
    "Jxl.Props.C78_inside_partial",
    "Jxl.Props.C78_translate_partial",
    "Jxl.Props.C78_extend_partial",
    "Jxl.Props.C78_shift_partial",
    "Jxl.Props.C78_ceil_partial",
    "Jxl.Props.C78_intersection_wraps"
   ],
   "note": "All operations, for positions, sizes, borders and offsets up to 2^60 (2^30 when enlarging).  Beyond that the property does not hold: C78_intersection_wraps gives two disjoint rectangles close to 2^64 with a non-empty intersection."
  }
 ]
}