{
 "claims": [
  {
   "property": "C01",
   "status": "proved",
   "theorems": [
    "Goost.Props.C01_decrypt_encrypt",
    "Goost.Props.C01_encrypt_decrypt"
   ],
   "note": "All keys whose transform is total, all blocks; both composition orders."
  },
  {
   "property": "C02",
   "status": "proved",
   "theorems": [
    "Goost.Props.C02_encryptors_agree"
   ],
   "note": "EncryptionBase and BlkEncrypted give the same value for every key and block."
  },
  {
   "property": "C03",
   "status": "proved",
   "theorems": [
    "Goost.Props.C03_encrypt_conforms",
    "Goost.Props.C03_decrypt_conforms",
    "Goost.Props.C03_encryptionBase_conforms"
   ],
   "note": "Encryption and decryption equal an independent transcription of GOST R 34.12-2015 (Magma)."
  },
  {
   "property": "C04",
   "status": "proved",
   "theorems": [
    "Goost.Props.C04_encrypt_injective",
    "Goost.Props.C04_encrypt_bijective"
   ],
   "note": "Injective and surjective for every key."
  },
  {
   "property": "C05",
   "status": "proved",
   "theorems": [
    "Goost.Props.C05_nibble_substitution",
    "Goost.Props.C05_twisted_rotation",
    "Goost.Props.C05_r3412_bijection"
   ],
   "note": "Nibble substitution, rotation by 11 and bijectivity of the R 34.12 table."
  },
  {
   "property": "C06",
   "status": "proved",
   "theorems": [
    "Goost.Props.C06_packed_equals_nibble",
    "Goost.Props.C06_packed_total"
   ],
   "note": "The packed byte table equals the nibble tables for every word, and never fails on a full table."
  },
  {
   "property": "C07",
   "status": "proved",
   "theorems": [
    "Goost.Props.C07_string_native_agree",
    "Goost.Props.C07_container_native_agree"
   ],
   "note": "Text, container and native forms of one key give the same words at all eight indices."
  },
  {
   "property": "C08",
   "status": "proved",
   "theorems": [
    "Goost.Props.C08_wrong_size_rejected",
    "Goost.Props.C08_wrong_index_rejected",
    "Goost.Props.C08_parsed_exactly",
    "Goost.Props.C08_key_of_wrong_size_rejected"
   ],
   "note": "Wrong size, wrong index rejected; correct text parsed exactly."
  },
  {
   "property": "C09",
   "status": "partial",
   "theorems": [
    "Goost.Props.C09_nothing_is_rejected",
    "Goost.Props.C09_garbage_is_ignored",
    "Goost.Props.C09_malformed_key_accepted",
    "Goost.Props.C09_malformed_key_rejected_partial"
   ],
   "note": "The code does not reject malformed hex: C09_nothing_is_rejected and C09_malformed_key_accepted prove the negation; the partial theorem is the part that holds (wrong length is rejected)."
  },
  {
   "property": "C10",
   "status": "proved",
   "theorems": [
    "Goost.Props.C10_history_is_memo",
    "Goost.Props.C10_cache_unobservable",
    "Goost.Props.C10_every_call_like_the_first"
   ],
   "note": "Every call history equals the memoised function; the cache is unobservable for constant key data."
  },
  {
   "property": "C11",
   "status": "partial",
   "theorems": [
    "Goost.Props.C11_results_right_partial",
    "Goost.Props.C11_results_like_single_call",
    "Goost.Props.C11_every_thread_returns",
    "Goost.Props.C11_data_race",
    "Goost.Props.C11_no_race_after_first_call_partial"
   ],
   "note": "Results are right under every interleaving and every thread returns, but there is a data race (C11_data_race), so the property as stated is false; races are absent after one completed call."
  },
  {
   "property": "C12",
   "status": "proved",
   "theorems": [
    "Goost.Props.C12_aligned_write",
    "Goost.Props.C12_conforms"
   ],
   "note": "Equality of effects for every sink, also failing ones; every usable key; conformance for hexadecimal keys."
  },
  {
   "property": "C13",
   "status": "partial",
   "theorems": [
    "Goost.Props.C13_short_write_rejected_partial",
    "Goost.Props.C13_unaligned_write",
    "Goost.Props.C13_blocks_written_before_throw"
   ],
   "note": "False of the code: C13_blocks_written_before_throw. Holds for data shorter than one block."
  },
  {
   "property": "C14",
   "status": "proved",
   "theorems": [
    "Goost.Props.C14_split_write",
    "Goost.Props.C14_any_split"
   ],
   "note": "For every key and sink, also failing; any number of writes."
  },
  {
   "property": "C15",
   "status": "proved",
   "theorems": [
    "Goost.Props.C15_round_trip"
   ],
   "note": "Any collecting sink, any source of the collected bytes."
  },
  {
   "property": "C16",
   "status": "proved",
   "theorems": [
    "Goost.Props.C16_small_read_rejected",
    "Goost.Props.C16_read_one_block",
    "Goost.Props.C16_read_size_irrelevant"
   ],
   "note": "Rejection, exactly one block, independence of the size, length bound for arbitrary sources."
  },
  {
   "property": "C17",
   "status": "partial",
   "theorems": [
    "Goost.Props.C17_truncated_is_undefined",
    "Goost.Props.C17_whole_blocks_safe_partial"
   ],
   "note": "False of the code: every tail of 1..7 bytes is an out-of-bounds read. Safe for whole blocks."
  },
  {
   "property": "C18",
   "status": "proved",
   "theorems": [
    "Goost.Props.C18_ciphertext",
    "Goost.Props.C18_conforms",
    "Goost.Props.C18_state"
   ],
   "note": "Any sequence of writes, any sink; the returned object is described exactly too."
  },
  {
   "property": "C19",
   "status": "proved",
   "theorems": [
    "Goost.Props.C19_magma_split_irrelevant",
    "Goost.Props.C19_gost89_split_irrelevant"
   ],
   "note": "Both ciphers, any key and any sink, also failing."
  },
  {
   "property": "C20",
   "status": "proved",
   "theorems": [
    "Goost.Props.C20_magma_held_back",
    "Goost.Props.C20_gost89_held_back"
   ],
   "note": "Both ciphers, any key, every successful history."
  },
  {
   "property": "C21",
   "status": "partial",
   "theorems": [
    "Goost.Props.C21_nothing_held_back_partial",
    "Goost.Props.C21_magma_finalize_undefined",
    "Goost.Props.C21_gost89_finalize_undefined",
    "Goost.Props.C21_history_undefined",
    "Goost.Props.C21_gost89_history_undefined"
   ],
   "note": "False of the code for every nonempty tail, both ciphers. Holds when nothing is held back."
  },
  {
   "property": "C22",
   "status": "proved",
   "theorems": [
    "Goost.Props.C22_magma_supplies",
    "Goost.Props.C22_gost89_supplies",
    "Goost.Props.C22_reads_concatenate",
    "Goost.Props.C22_budget_irrelevant"
   ],
   "note": "Both ciphers; also that the iteration budget of the model is not observable."
  },
  {
   "property": "C23",
   "status": "proved",
   "theorems": [
    "Goost.Props.C23_round_trip"
   ],
   "note": "Any pieces, any read sizes, any collecting sink and any source."
  },
  {
   "property": "C24",
   "status": "partial",
   "theorems": [
    "Goost.Props.C24_magma_bad_chunk_undefined",
    "Goost.Props.C24_gost89_bad_chunk_undefined",
    "Goost.Props.C24_whole_blocks_safe_partial",
    "Goost.Props.C24_gost89_whole_blocks_safe_partial"
   ],
   "note": "False of the code for every chunk that is neither empty nor 8 bytes. Safe over whole blocks."
  },
  {
   "property": "C25",
   "status": "proved",
   "theorems": [
    "Goost.Props.C25_magma_self_synchronising",
    "Goost.Props.C25_gost89_self_synchronising"
   ],
   "note": "Both ciphers."
  },
  {
   "property": "C26",
   "status": "proved",
   "theorems": [
    "Goost.Props.C26_magma_error_propagation",
    "Goost.Props.C26_gost89_error_propagation"
   ],
   "note": "Both ciphers; the later block always changes because encryption is injective."
  },
  {
   "property": "C27",
   "status": "proved",
   "theorems": [
    "Goost.Props.C27_ciphertext",
    "Goost.Props.C27_conforms"
   ],
   "note": "Any key; with packed tables conformance to GOST 28147-89."
  },
  {
   "property": "C28",
   "status": "proved",
   "theorems": [
    "Goost.Props.C28_round_trip"
   ],
   "note": "Any pieces, any read sizes."
  },
  {
   "property": "C29",
   "status": "proved",
   "theorems": [
    "Goost.Props.C29_gost89_mac",
    "Goost.Props.C29_native_key",
    "Goost.Props.C29_padding"
   ],
   "note": "Every message and every usable key, and the packed-table key of GOST 28147-89."
  },
  {
   "property": "C30",
   "status": "proved",
   "theorems": [
    "Goost.Props.C30_one_block_changes_mac"
   ],
   "note": "Any position of the changed block."
  },
  {
   "property": "C31",
   "status": "proved",
   "theorems": [
    "Goost.Props.C31_zero_padding",
    "Goost.Props.C31_zero_byte",
    "Goost.Props.C31_zero_byte_after_whole"
   ],
   "note": "Exactly the zero bytes within the padding are invisible."
  },
  {
   "property": "C32",
   "status": "proved",
   "theorems": [
    "Goost.Props.C32_omac",
    "Goost.Props.C32_conforms"
   ],
   "note": "Proved for processors that take shift counts modulo 32; undefined on the abstract machine (C33)."
  },
  {
   "property": "C33",
   "status": "partial",
   "theorems": [
    "Goost.Props.C33_always_undefined",
    "Goost.Props.C33_empty_message_undefined",
    "Goost.Props.C33_defined_on_x86_partial"
   ],
   "note": "False of the code: C33_always_undefined, C33_empty_message_undefined. The partial theorem is for x86 shifts."
  },
  {
   "property": "C34",
   "status": "partial",
   "theorems": [
    "Goost.Props.C34_partial_block_zero_padded",
    "Goost.Props.C34_zero_byte_same_mac",
    "Goost.Props.C34_same_length_partial",
    "Goost.Props.C34_equal_macs_partial"
   ],
   "note": "False of the code: C34_zero_byte_same_mac. C34_equal_macs_partial says exactly when codes are equal: the partial blocks are equal after padding with zeros."
  },
  {
   "property": "C35",
   "status": "proved",
   "theorems": [
    "Goost.Props.C35_one_block_changes_mac"
   ],
   "note": "Proved for processors that take shift counts modulo 32; undefined on the abstract machine (C33)."
  },
  {
   "property": "C36",
   "status": "partial",
   "theorems": [
    "Goost.Props.C36_depth_grows",
    "Goost.Props.C36_linear_depth_partial",
    "Goost.Props.C36_no_bound",
    "Goost.Props.C36_reached"
   ],
   "note": "False of the code: C36_depth_grows, C36_no_bound. The partial theorem bounds the depth linearly. C36_reached measures the nesting with a recorder that runs with the evaluation."
  },
  {
   "property": "C37",
   "status": "proved",
   "theorems": [
    "Goost.Props.C37_conforms",
    "Goost.Props.C37_conforms_any_key_data",
    "Goost.Props.C37_exceptions_pass",
    "Goost.Props.C37_second_half_exception"
   ],
   "note": "Every block and every key, from text or from any two blocks, on processors that allow unaligned loads; undefined elsewhere (C61). Exceptions of the block and of either half of the key pass (C37_exceptions_pass, C37_second_half_exception)."
  },
  {
   "property": "C38",
   "status": "proved",
   "theorems": [
    "Goost.Props.C38_decryptable",
    "Goost.Props.C38_injective",
    "Goost.Props.C38_bijective"
   ],
   "note": "Explicit inverse, injective, bijective; on processors that allow unaligned loads."
  },
  {
   "property": "C39",
   "status": "proved",
   "theorems": [
    "Goost.Props.C39_gmul_is_field_multiplication",
    "Goost.Props.C39_bytes_are_polynomials",
    "Goost.Props.C39_gmul_is_spec_product",
    "Goost.Props.C39_inverse"
   ],
   "note": "Against polynomials over ZMod 2 from Mathlib; also that every nonzero byte has an inverse."
  },
  {
   "property": "C40",
   "status": "proved",
   "theorems": [
    "Goost.Props.C40_S",
    "Goost.Props.C40_R",
    "Goost.Props.C40_L",
    "Goost.Props.C40_linear"
   ],
   "note": "Conformance to the standard, inverses and linearity; R and L on processors that allow unaligned loads."
  },
  {
   "property": "C41",
   "status": "proved",
   "theorems": [
    "Goost.Props.C41_caches_unobservable",
    "Goost.Props.C41_key_history",
    "Goost.Props.C41_value_is_cached_value",
    "Goost.Props.C41_blkcached_is_memo"
   ],
   "note": "Any history over any system of blocks sharing caches; the ideal memo for a single BlkCached over a block with hidden state."
  },
  {
   "property": "C42",
   "status": "partial",
   "theorems": [
    "Goost.Props.C42_any_length_accepted",
    "Goost.Props.C42_half_key_accepted",
    "Goost.Props.C42_garbage_accepted",
    "Goost.Props.C42_short_text_rejected_partial",
    "Goost.Props.C42_unreadable_quarter_rejected_partial"
   ],
   "note": "False of the code: C42_any_length_accepted, C42_half_key_accepted, C42_garbage_accepted. The partial theorems say what is rejected."
  },
  {
   "property": "C43",
   "status": "proved",
   "theorems": [
    "Goost.Props.C43_increment",
    "Goost.Props.C43_increment_many",
    "Goost.Props.C43_no_repetition"
   ],
   "note": "Addition of one modulo 2^128; n increments add n; no repetition before 2^128."
  },
  {
   "property": "C44",
   "status": "proved",
   "theorems": [
    "Goost.Props.C44_key_from_text",
    "Goost.Props.C44_ctr_conforms",
    "Goost.Props.C44_ctr_block"
   ],
   "note": "Over any stream; block by block and as a whole."
  },
  {
   "property": "C45",
   "status": "proved",
   "theorems": [
    "Goost.Props.C45_ctr_involution"
   ],
   "note": "Over any stream."
  },
  {
   "property": "C46",
   "status": "proved",
   "theorems": [
    "Goost.Props.C46_keystream_blocks_differ",
    "Goost.Props.C46_positions",
    "Goost.Props.C46_different_iv"
   ],
   "note": "Any two positions of the same or of two streams under one key."
  },
  {
   "property": "C47",
   "status": "proved",
   "theorems": [
    "Goost.Props.C47_memory_blocks",
    "Goost.Props.C47_memory_shows",
    "Goost.Props.C47_memory_end"
   ],
   "note": "Every vector of even positive length, every position."
  },
  {
   "property": "C48",
   "status": "partial",
   "theorems": [
    "Goost.Props.C48_odd_length_out_of_bounds",
    "Goost.Props.C48_empty_null_dereference",
    "Goost.Props.C48_even_length_safe_partial",
    "Goost.Props.C48_walk_safe_iff"
   ],
   "note": "False of the code: C48_odd_length_out_of_bounds, C48_empty_null_dereference; C48_walk_safe_iff says exactly for which vectors walking is safe."
  },
  {
   "property": "C49",
   "status": "partial",
   "theorems": [
    "Goost.Props.C49_stream_gone",
    "Goost.Props.C49_stream_gone_wrapped",
    "Goost.Props.C49_history_stream_gone",
    "Goost.Props.C49_iter_drop_next",
    "Goost.Props.C49_owned_histories_safe_partial",
    "Goost.Props.C49_value_survives_partial"
   ],
   "note": "False of the code: C49_stream_gone, C49_history_stream_gone (also at the end of a history of handle operations). Proved: histories in which the stream always has an owner never dereference a dangling pointer; value() survives the stream."
  },
  {
   "property": "C50",
   "status": "proved",
   "theorems": [
    "Goost.Props.C50_mac_conforms",
    "Goost.Props.C50_mac_any_stream"
   ],
   "note": "Over StMemory and over any stream."
  },
  {
   "property": "C51",
   "status": "proved",
   "theorems": [
    "Goost.Props.C51_one_block_changes_mac"
   ],
   "note": "Any position of the changed block."
  },
  {
   "property": "C52",
   "status": "partial",
   "theorems": [
    "Goost.Props.C52_shift_partial",
    "Goost.Props.C52_other_shifts_undefined"
   ],
   "note": "Only shifts 1..63 are defined; C52_other_shifts_undefined shows the rest is undefined behaviour."
  },
  {
   "property": "C53",
   "status": "proved",
   "theorems": [
    "Goost.Props.C53_magma_text_value",
    "Goost.Props.C53_magma_text_round_trip",
    "Goost.Props.C53_kuznyechik_text_value",
    "Goost.Props.C53_kuznyechik_text_round_trip"
   ],
   "note": "Text form parsed exactly and round trip for both ciphers."
  },
  {
   "property": "C54",
   "status": "proved",
   "theorems": [
    "Goost.Props.C54_magma_from_number",
    "Goost.Props.C54_magma_from_words",
    "Goost.Props.C54_magma_from_block",
    "Goost.Props.C54_magma_from_bytes",
    "Goost.Props.C54_magma_short_buffer",
    "Goost.Props.C54_kuznyechik",
    "Goost.Props.C54_kuznyechik_short_buffer"
   ],
   "note": "All constructors of BlkRaw."
  },
  {
   "property": "C55",
   "status": "proved",
   "theorems": [
    "Goost.Props.C55_magma_xor_all",
    "Goost.Props.C55_magma_xor_order",
    "Goost.Props.C55_magma_xor_twice",
    "Goost.Props.C55_kuznyechik_xor_all",
    "Goost.Props.C55_kuznyechik_xor_order",
    "Goost.Props.C55_kuznyechik_xor_twice"
   ],
   "note": "Any number of operands, order irrelevant, twice cancels."
  },
  {
   "property": "C56",
   "status": "partial",
   "theorems": [
    "Goost.Props.C56_other_keys_undefined",
    "Goost.Props.C56_ecbsink_any_key_partial"
   ],
   "note": "False of the code for every class but LazyKey; ECBSink does accept any class."
  },
  {
   "property": "C57",
   "status": "proved",
   "theorems": [
    "Goost.Props.C57_layers_compose",
    "Goost.Props.C57_stack_ciphertext",
    "Goost.Props.C57_stack_plaintext",
    "Goost.Props.C57_stack_round_trip"
   ],
   "note": "Two layers and stacks of any depth, over any sink and any source of whole blocks."
  },
  {
   "property": "C58",
   "status": "partial",
   "theorems": [
    "Goost.Props.C58_results_right_partial",
    "Goost.Props.C58_data_race",
    "Goost.Props.C58_every_thread_returns",
    "Goost.Props.C58_no_race_after_first_call_partial"
   ],
   "note": "As C11: right results under every interleaving, every thread returns after finitely many of its own steps, data race proved, no race among the calls after the first one has returned. Evaluation of the wrapped block is one step."
  },
  {
   "property": "C59",
   "status": "partial",
   "theorems": [
    "Goost.Props.C59_raw_after_end",
    "Goost.Props.C59_only_plaintext_partial"
   ],
   "note": "False of the code: C59_raw_after_end. Holds over sources that stay at the end once there."
  },
  {
   "property": "C60",
   "status": "partial",
   "theorems": [
    "Goost.Props.C60_shift_partial",
    "Goost.Props.C60_always_undefined",
    "Goost.Props.C60_shift_by_zero_wrong",
    "Goost.Props.C60_shift_by_32_wrong",
    "Goost.Props.C60_every_count",
    "Goost.Props.C60_shift_over_32_wrong"
   ],
   "note": "False of the code: C60_always_undefined, C60_shift_by_zero_wrong, C60_shift_by_32_wrong, C60_shift_over_32_wrong. Right for 1..31 on x86; C60_every_count says what every count does there."
  },
  {
   "property": "C61",
   "status": "partial",
   "theorems": [
    "Goost.Props.C61_misaligned_load",
    "Goost.Props.C61_no_undefined_behaviour_partial",
    "Goost.Props.C61_texts_partial"
   ],
   "note": "False of the code on machines without unaligned loads: C61_misaligned_load. Holds on the others."
  },
  {
   "property": "C62",
   "status": "partial",
   "theorems": [
    "Goost.Props.C62_depth_grows",
    "Goost.Props.C62_no_bound",
    "Goost.Props.C62_linear_depth_partial",
    "Goost.Props.C62_reached",
    "Goost.Props.C62_reached_partial"
   ],
   "note": "False of the code: C62_depth_grows, C62_no_bound. The partial theorem bounds the depth linearly. C62_reached measures the nesting with a recorder that runs with the evaluation."
  },
  {
   "property": "C63",
   "status": "partial",
   "theorems": [
    "Goost.Props.C63_depth_grows",
    "Goost.Props.C63_linear_depth_partial",
    "Goost.Props.C63_reached"
   ],
   "note": "False of the code: C63_depth_grows. C63_reached measures the nesting with a recorder that runs with the evaluation."
  },
  {
   "property": "C64",
   "status": "partial",
   "theorems": [
    "Goost.Props.C64_end_is_not_null",
    "Goost.Props.C64_memory_end_null_partial"
   ],
   "note": "False of the code: C64_end_is_not_null. True of StMemory."
  },
  {
   "property": "C65",
   "status": "partial",
   "theorems": [
    "Goost.Props.C65_results_right_partial",
    "Goost.Props.C65_shared_key_conforms_partial",
    "Goost.Props.C65_every_thread_returns",
    "Goost.Props.C65_data_race",
    "Goost.Props.C65_no_race_after_first_partial",
    "Goost.Props.C65_first_completes",
    "Goost.Props.C65_alone_is_sequential"
   ],
   "note": "Results right and threads return for all programs and schedules (sequentially consistent interleaving of single loads and stores). Freedom from races is false: C65_data_race; true once one encryption has been completed."
  },
  {
   "property": "C66",
   "status": "partial",
   "theorems": [
    "Goost.Props.C66_results_right_partial",
    "Goost.Props.C66_encrypt_partial",
    "Goost.Props.C66_decrypt_partial",
    "Goost.Props.C66_every_thread_returns",
    "Goost.Props.C66_data_race",
    "Goost.Props.C66_no_race_after_first_partial"
   ],
   "note": "Results right and threads return for all programs and schedules (sequentially consistent interleaving of single loads and stores). Freedom from races is false: C66_data_race; true once one call has been completed."
  },
  {
   "property": "C67",
   "status": "proved",
   "theorems": [
    "Goost.Props.C67_mac_of_decrypted",
    "Goost.Props.C67_kuznyechik_mac_of_ctr"
   ],
   "note": "Magma MAC on machines that take shift counts modulo 32 (C33), kuznyechik on machines that allow unaligned loads (C61)."
  },
  {
   "property": "C68",
   "status": "proved",
   "theorems": [
    "Goost.Props.C68_stack_sink_failure",
    "Goost.Props.C68_stack_source_failure",
    "Goost.Props.C68_cfbsink_failure",
    "Goost.Props.C68_gost89_cfbsink_failure",
    "Goost.Props.C68_ecbsink_failure",
    "Goost.Props.C68_cfbsource_failure",
    "Goost.Props.C68_gost89_cfbsource_failure",
    "Goost.Props.C68_ecbsource_failure",
    "Goost.Props.C68_mac_failure"
   ],
   "note": "Magma and gost89 sinks, sources and authentication code; every point of failure; stacks of any depth (Props/Crash)."
  },
  {
   "property": "C69",
   "status": "partial",
   "theorems": [
    "Goost.Props.C69_sink_retry",
    "Goost.Props.C69_sink_first_operation_partial",
    "Goost.Props.C69_sink_retry_duplicates",
    "Goost.Props.C69_source_retry",
    "Goost.Props.C69_source_retry_loses",
    "Goost.Props.C69_source_position_in_object_partial",
    "Goost.Props.C69_stack_sink_retry",
    "Goost.Props.C69_stack_sink_duplicates_iff",
    "Goost.Props.C69_stack_source_retry",
    "Goost.Props.C69_stack_source_retry_loses",
    "Goost.Props.C69_stack_position_in_object_partial",
    "Goost.Props.C69_gost89_source_retry",
    "Goost.Props.C69_ecbsource_partial"
   ],
   "note": "False of the code: C69_sink_retry_duplicates, C69_source_retry_loses; C69_sink_retry and C69_source_retry say what a retry does. C69_stack_sink_retry and C69_stack_source_retry say it for stacks of any depth, so also for ECB and gost89. The partial theorems give the cases in which a retry works."
  },
  {
   "property": "C70",
   "status": "proved",
   "theorems": [
    "Goost.Props.C70_growing_file",
    "Goost.Props.C70_gost89_growing_file"
   ],
   "note": "Every list of arrivals (whole blocks) and reads; both CFBSources."
  },
  {
   "property": "C71",
   "status": "partial",
   "theorems": [
    "Goost.Props.C71_repeatable_partial",
    "Goost.Props.C71_second_call_undefined"
   ],
   "note": "False of the code: C71_second_call_undefined. Holds for sources that keep their position in the object."
  },
  {
   "property": "C72",
   "status": "proved",
   "theorems": [
    "Goost.Props.C72_any_reads",
    "Goost.Props.C72_gost89_any_reads",
    "Goost.Props.C72_reads_only_what_it_needs",
    "Goost.Props.C72_gost89_reads_only_what_it_needs",
    "Goost.Props.C72_trailing_data"
   ],
   "note": "Any source that has the blocks next; C72_trailing_data shows it for a file."
  },
  {
   "property": "C73",
   "status": "partial",
   "theorems": [
    "Goost.Props.C73_short_key_undefined",
    "Goost.Props.C73_long_key_truncated",
    "Goost.Props.C73_eight_words_partial",
    "Goost.Props.C73_container_undefined",
    "Goost.Props.C73_container_zero_padded"
   ],
   "note": "False of the code: C73_short_key_undefined, C73_long_key_truncated, C73_container_undefined, C73_container_zero_padded. The partial theorem covers keys of eight words."
  },
  {
   "property": "C74",
   "status": "partial",
   "theorems": [
    "Goost.Props.C74_nibble_tables",
    "Goost.Props.C74_entries_spill",
    "Goost.Props.C74_packed_short_undefined",
    "Goost.Props.C74_packed_long_truncated",
    "Goost.Props.C74_well_formed_partial"
   ],
   "note": "False of the code: C74_nibble_tables, C74_entries_spill, C74_packed_short_undefined, C74_packed_long_truncated. The partial theorem covers well-formed tables."
  },
  {
   "property": "C75",
   "status": "partial",
   "theorems": [
    "Goost.Props.C75_long_text_truncated",
    "Goost.Props.C75_garbage_accepted",
    "Goost.Props.C75_unreadable_half_rejected_partial"
   ],
   "note": "False of the code: C75_long_text_truncated, C75_garbage_accepted. The partial theorem says what is rejected."
  },
  {
   "property": "C76",
   "status": "proved",
   "theorems": [
    "Goost.Props.C76_ecb_equal_blocks",
    "Goost.Props.C76_cfb_repeated_iv",
    "Goost.Props.C76_gost89_cfb_repeated_iv",
    "Goost.Props.C76_ctr_repeated_iv"
   ],
   "note": "ECB within a message; CFB (magma and gost89) and CTR for two messages; every block position."
  },
  {
   "property": "C77",
   "status": "proved",
   "theorems": [
    "Goost.Props.C77_read",
    "Goost.Props.C77_supplies_blocks",
    "Goost.Props.C77_whole_read",
    "Goost.Props.C77_more_than_asked"
   ],
   "note": "C77_more_than_asked says what reads of other sizes give."
  },
  {
   "property": "C78",
   "status": "proved",
   "theorems": [
    "Goost.Props.C78_sink",
    "Goost.Props.C78_block_text",
    "Goost.Props.C78_block_comparison",
    "Goost.Props.C78_key_text",
    "Goost.Props.C78_number_texts",
    "Goost.Props.C78_block_shows",
    "Goost.Props.C78_block_of_stream"
   ],
   "note": "Both ciphers' blocks."
  },
  {
   "property": "C79",
   "status": "partial",
   "theorems": [
    "Goost.Props.C79_hexmatch_outcome",
    "Goost.Props.C79_sourcematch_outcome",
    "Goost.Props.C79_surplus_accepted",
    "Goost.Props.C79_short_undefined",
    "Goost.Props.C79_same_length_partial"
   ],
   "note": "False of the code: C79_surplus_accepted, C79_short_undefined; C79_hexmatch_outcome and C79_sourcematch_outcome give the outcome in all cases. The partial theorem covers results of the expected length."
  },
  {
   "property": "C80",
   "status": "proved",
   "theorems": [
    "Goost.Props.C80_cfb_sink",
    "Goost.Props.C80_gost89_cfb_sink",
    "Goost.Props.C80_ecb_sink",
    "Goost.Props.C80_cfb_source",
    "Goost.Props.C80_ecb_source",
    "Goost.Props.C80_imit",
    "Goost.Props.C80_expected_text",
    "Goost.Props.C80_verdict",
    "Goost.Props.C80_comparison",
    "Goost.Props.C80_sink_verdicts",
    "Goost.Props.C80_source_verdicts"
   ],
   "note": "CFB (magma and gost89) and ECB sinks and sources; texts of up to SIZE_MAX bytes for sinks, as one read is made."
  },
  {
   "property": "C81",
   "status": "partial",
   "theorems": [
    "Goost.Props.C81_container_is_text_key_partial",
    "Goost.Props.C81_malformed_texts",
    "Goost.Props.C81_garbage_accepted"
   ],
   "note": "False of the code: C81_malformed_texts (uninitialised characters), C81_garbage_accepted. The partial theorem covers texts of 64 digits."
  },
  {
   "property": "C82",
   "status": "partial",
   "theorems": [
    "Goost.Props.C82_not_finalized",
    "Goost.Props.C82_finalize_twice_partial",
    "Goost.Props.C82_stack_not_finalized",
    "Goost.Props.C82_stack_finalize_all_partial"
   ],
   "note": "False of the code: C82_not_finalized, and for stacks of any depth C82_stack_not_finalized. The partial theorems: finalizing the returned sink, layer by layer, brings all out."
  },
  {
   "property": "C83",
   "status": "proved",
   "theorems": [
    "Goost.Props.C83_tags_combine"
   ],
   "note": "Messages of at least two whole blocks; the second message has data behind its first block."
  },
  {
   "property": "C84",
   "status": "proved",
   "theorems": [
    "Goost.Props.C84_palindromic_key",
    "Goost.Props.C84_highest_bits",
    "Goost.Props.C84_highest_bits_cfb",
    "Goost.Props.C84_highest_bits_gost89_cfb",
    "Goost.Props.C84_highest_bits_code"
   ],
   "note": "LazyKey from eight words with any total substitution."
  },
  {
   "property": "C85",
   "status": "proved",
   "theorems": [
    "Goost.Props.C85_anything_decrypts",
    "Goost.Props.C85_truncated",
    "Goost.Props.C85_ecb_rearranged",
    "Goost.Props.C85_cfb_spliced",
    "Goost.Props.C85_ctr_changed"
   ],
   "note": "Magma CFB, gost89 CFB and ECB sources over any source of blocks; CTR over any stream."
  },
  {
   "property": "C86",
   "status": "proved",
   "theorems": [
    "Goost.Props.C86_mac_failure",
    "Goost.Props.C86_ctr_failure",
    "Goost.Props.C86_iter_failure",
    "Goost.Props.C86_key_failure"
   ],
   "note": "Any stream given by its four methods; failures of iter(), last(), value(), next(), size() and of the key."
  },
  {
   "property": "C87",
   "status": "partial",
   "theorems": [
    "Goost.Props.C87_short_piece_ends",
    "Goost.Props.C87_long_piece_undefined",
    "Goost.Props.C87_rest_ignored",
    "Goost.Props.C87_whole_pieces_partial"
   ],
   "note": "False of the code: C87_short_piece_ends, C87_rest_ignored, C87_long_piece_undefined. The partial theorem covers pieces of whole blocks."
  },
  {
   "property": "C88",
   "status": "partial",
   "theorems": [
    "Goost.Props.C88_kuznyechik_recorded",
    "Goost.Props.C88_magma_recorded",
    "Goost.Props.C88_cached_key_partial",
    "Goost.Props.C88_after_first_encryption_partial",
    "Goost.Props.C88_ctr_block_partial",
    "Goost.Props.C88_ctr_not_linear",
    "Goost.Props.C88_kuznyechik_mac_partial",
    "Goost.Props.C88_magma_mac_partial"
   ],
   "note": "False of the code: C88_ctr_not_linear. The partial theorems: a bound for one CTR block, linear bounds for both authentication codes, at most 174 calls for a block once the caches of the key are loaded, which every successful encryption brings about. C88_kuznyechik_recorded and C88_magma_recorded show that the counts are those of a recorder that runs with the evaluation."
  },
  {
   "property": "C89",
   "status": "partial",
   "theorems": [
    "Goost.Props.C89_log_of_the_code",
    "Goost.Props.C89_magma_reveals_key",
    "Goost.Props.C89_magma_reveals_text_key",
    "Goost.Props.C89_magma_steps_partial",
    "Goost.Props.C89_kuznyechik_log_of_the_code",
    "Goost.Props.C89_kuznyechik_reveals_key",
    "Goost.Props.C89_kuznyechik_reveals_text_key",
    "Goost.Props.C89_kuznyechik_steps_partial",
    "Goost.Props.C89_kuznyechik_count_partial",
    "Goost.Props.C89_kuznyechik_recorded"
   ],
   "note": "False of the code: C89_magma_reveals_key, C89_magma_reveals_text_key, C89_kuznyechik_reveals_key, C89_kuznyechik_reveals_text_key. C89_log_of_the_code and C89_kuznyechik_log_of_the_code tie the logs to the code. The partial theorems: the number of steps is the same for all keys and blocks. C89_kuznyechik_recorded shows that the log is that of a recorder that runs with the evaluation."
  },
  {
   "property": "C90",
   "status": "partial",
   "theorems": [
    "Goost.Props.C90_little_endian_is_the_model",
    "Goost.Props.C90_container_key_partial",
    "Goost.Props.C90_cfb_round_trip_partial",
    "Goost.Props.C90_gost89_cfb_round_trip_partial",
    "Goost.Props.C90_cfb_first_blocks_partial",
    "Goost.Props.C90_gost89_cfb_first_block_partial",
    "Goost.Props.C90_cfb_other_machine",
    "Goost.Props.C90_ecb_written",
    "Goost.Props.C90_ecb_read",
    "Goost.Props.C90_ecb_depends_on_machine",
    "Goost.Props.C90_ecb_big_endian_round_trip_fails",
    "Goost.Props.C90_mac_value",
    "Goost.Props.C90_mac_one_block",
    "Goost.Props.C90_gost89_mac_value",
    "Goost.Props.C90_gost89_mac_depends_on_machine",
    "Goost.Props.C90_kuznyechik_substitution_partial",
    "Goost.Props.C90_kuznyechik_big_endian_value",
    "Goost.Props.C90_kuznyechik_depends_on_machine"
   ],
   "note": "False of the code: C90_cfb_other_machine, C90_mac_one_block (for every key), C90_ecb_depends_on_machine, C90_ecb_big_endian_round_trip_fails, C90_gost89_mac_depends_on_machine, C90_kuznyechik_depends_on_machine. C90_ecb_written, C90_ecb_read, C90_mac_value, C90_gost89_mac_value, C90_kuznyechik_big_endian_value say what each machine computes. The partial theorems: keys of containers, CFB on machines of one byte order, the first blocks of CFB, the substitution of the 128-bit cipher. C90_little_endian_is_the_model ties the functions to the rest of the model."
  },
  {
   "property": "C91",
   "status": "proved",
   "theorems": [
    "Goost.Props.C91_iterated",
    "Goost.Props.C91_int",
    "Goost.Props.C91_constants",
    "Goost.Props.C91_empty_range",
    "Goost.Props.C91_round_keys",
    "Goost.Props.C91_last_keys_determine_key"
   ],
   "note": "Any blocks that have values, any int bounds of the range; constants of negative numbers are those of the number modulo 2^64."
  },
  {
   "property": "C92",
   "status": "proved",
   "theorems": [
    "Goost.Props.C92_magma_key_texts",
    "Goost.Props.C92_kuznyechik_key_texts",
    "Goost.Props.C92_magma_block_texts",
    "Goost.Props.C92_kuznyechik_block_texts",
    "Goost.Props.C92_native_keys"
   ],
   "note": "Keys are compared by the answers of the subkeys (magma) and the round keys (kuznyechik). Whether different keys always encrypt differently is a question about the ciphers, not the code."
  },
  {
   "property": "C93",
   "status": "partial",
   "theorems": [
    "Goost.Props.C93_cfb_same_object",
    "Goost.Props.C93_gost89_cfb_same_object",
    "Goost.Props.C93_cfb_reveals",
    "Goost.Props.C93_cfb_short_pieces_lost",
    "Goost.Props.C93_cfb_right_iff",
    "Goost.Props.C93_cfb_wrong",
    "Goost.Props.C93_gost89_cfb_right_iff",
    "Goost.Props.C93_ecb_same_object_partial",
    "Goost.Props.C93_cfb_source_same_object",
    "Goost.Props.C93_gost89_cfb_source_same_object",
    "Goost.Props.C93_cfb_source_wrong",
    "Goost.Props.C93_ecb_source_same_object_partial",
    "Goost.Props.C93_reread_partial"
   ],
   "note": "False of the code: C93_cfb_wrong, C93_cfb_source_wrong, C93_cfb_reveals, C93_cfb_short_pieces_lost. C93_cfb_same_object, C93_gost89_cfb_same_object and their counterparts for sources say exactly what happens; C93_cfb_right_iff and C93_gost89_cfb_right_iff when it does no harm. The partial theorems: ECB, and repeated reads from objects that hold their position."
  },
  {
   "property": "C94",
   "status": "proved",
   "theorems": [
    "Goost.Props.C94_cfb_encryption",
    "Goost.Props.C94_gost89_cfb_encryption",
    "Goost.Props.C94_cfb_decryption",
    "Goost.Props.C94_gost89_cfb_decryption",
    "Goost.Props.C94_ctr"
   ],
   "note": "CFB of magma and of the old algorithm, both directions, and CTR. The files are any that store and supply."
  },
  {
   "property": "C95",
   "status": "proved",
   "theorems": [
    "Goost.Props.C95_magma",
    "Goost.Props.C95_gost89",
    "Goost.Props.C95_kuznyechik"
   ],
   "note": "The three authentication codes. For the 128-bit cipher over streams in memory, whose blocks are whole."
  },
  {
   "property": "C96",
   "status": "proved",
   "theorems": [
    "Goost.Props.C96_linear",
    "Goost.Props.C96_one_byte",
    "Goost.Props.C96_round",
    "Goost.Props.C96_encryption",
    "Goost.Props.C96_bound_is_reached"
   ],
   "note": "Proved by the theory of linear recurrences: the 16 roots of the recurrence are a geometric progression, so block and image are values of a polynomial of degree below 16 at 32 different points of the field of bytes (Lagrange interpolation from Mathlib). C96_bound_is_reached shows that 17 is exact, and that one step of the register does not have the bound. C96_encryption: in a whole encryption at least 69 of the 144 bytes that are substituted differ."
  },
  {
   "property": "C97",
   "status": "proved",
   "theorems": [
    "Goost.Props.C97_number_unique",
    "Goost.Props.C97_magma_key",
    "Goost.Props.C97_magma_key_other",
    "Goost.Props.C97_magma_block",
    "Goost.Props.C97_kuznyechik_block",
    "Goost.Props.C97_kuznyechik_key"
   ],
   "note": "The reading of numbers is specified by a grammar (Spec/Numerals: Reads), independently of the functions of the model; C97_number_unique shows that the grammar is unambiguous. Complements C09, C42 and C75, which say that malformed texts should be rejected and are false. Signs, prefix and white space are those of the C++ library in the C locale."
  },
  {
   "property": "C98",
   "status": "proved",
   "theorems": [
    "Goost.Props.C98_cfb_interleaves",
    "Goost.Props.C98_cfb_interleaves_decryption",
    "Goost.Props.C98_cfb_by_ecb",
    "Goost.Props.C98_gost89_cfb_by_ecb",
    "Goost.Props.C98_ctr_layers_commute"
   ],
   "note": "The message is split into even and odd blocks by Spec.evens and Spec.odds. Bytes after the last whole block are held back by the sinks (C20) and take no part."
  },
  {
   "property": "C99",
   "status": "proved",
   "theorems": [
    "Goost.Props.C99_exists_iff_reachable",
    "Goost.Props.C99_nothing_leaks",
    "Goost.Props.C99_no_use_after_free",
    "Goost.Props.C99_objects_constant",
    "Goost.Props.C99_iterator_usable_iff",
    "Goost.Props.C99_iter_starts",
    "Goost.Props.C99_next_moves",
    "Goost.Props.C99_next_ends",
    "Goost.Props.C99_value_usable",
    "Goost.Props.C99_iterator_does_not_keep"
   ],
   "note": "Model/Memory: objects with reference counts; a weak_ptr only in ItMemory; classes other than the kuznyechik streams are objects with any list of strong members. The variables include local variables of running functions. Reading a stream of an odd number of words may end in the read of C48. C99_iter_starts, C99_next_moves and C99_next_ends tie the model to the positions of C47. Objects on the stack or with static storage are not modelled."
  },
  {
   "property": "C100",
   "status": "partial",
   "theorems": [
    "Goost.Props.C100_pending_partial",
    "Goost.Props.C100_resume_partial",
    "Goost.Props.C100_gost89_resume_partial",
    "Goost.Props.C100_many_pending_stuck",
    "Goost.Props.C100_many_pending_in_clear",
    "Goost.Props.C100_source_pending",
    "Goost.Props.C100_source_resume",
    "Goost.Props.C100_gost89_source_resume"
   ],
   "note": "False of the code for sinks given 8 or more pending bytes: C100_many_pending_stuck (nothing is ever sent) and C100_many_pending_in_clear (finalizing sends all but 8 bytes unencrypted). The partial theorems cover fewer than 8 bytes, which is what a sink itself leaves pending. Sources: no restriction."
  },
  {
   "property": "C101",
   "status": "proved",
   "theorems": [
    "Goost.Props.C101_next_iter",
    "Goost.Props.C101_advance",
    "Goost.Props.C101_shows",
    "Goost.Props.C101_odd_rest",
    "Goost.Props.C101_size_t"
   ],
   "note": "The stream is alive during the calls (C49, C99 for the other case). The last block of an odd rest is C101_odd_rest. C101_size_t is about positions of w bits."
  },
  {
   "property": "C102",
   "status": "partial",
   "theorems": [
    "Goost.Props.C102_reducing_tables_partial",
    "Goost.Props.C102_table_arguments",
    "Goost.Props.C102_vector_of_256_undefined"
   ],
   "note": "False of the code: C102_vector_of_256_undefined; C102_table_arguments says what the tables are asked for. The partial theorem covers tables that reduce the number to a byte themselves, as the built-in ones do (C06)."
  },
  {
   "property": "C103",
   "status": "proved",
   "theorems": [
    "Goost.Props.C103_asked_once",
    "Goost.Props.C103_container_failure",
    "Goost.Props.C103_container_opens",
    "Goost.Props.C103_other_forms",
    "Goost.Props.C103_mask_ignored"
   ],
   "note": "Model/UserContainer: the functions of a container are actions on a state of the outside world. Containers of wrong sizes are C73. C103_mask_ignored records that the mask is not used (a @todo of the code)."
  },
  {
   "property": "C104",
   "status": "partial",
   "theorems": [
    "Goost.Props.C104_crash_leaves_prefix",
    "Goost.Props.C104_beginning_recovered",
    "Goost.Props.C104_torn_block_undefined",
    "Goost.Props.C104_recovery_partial"
   ],
   "note": "False of the code for what is left after a crash in the middle of a block: C104_torn_block_undefined, for stacks of any depth. C104_crash_leaves_prefix and C104_beginning_recovered hold without restriction; the partial theorem cuts the rest down to whole blocks before reading."
  },
  {
   "property": "C105",
   "status": "proved",
   "theorems": [
    "Goost.Props.C105_ecb_sink",
    "Goost.Props.C105_cfb_sink",
    "Goost.Props.C105_gost89_cfb_sink",
    "Goost.Props.C105_ecb_source",
    "Goost.Props.C105_cfb_source",
    "Goost.Props.C105_gost89_cfb_source",
    "Goost.Props.C105_mac",
    "Goost.Props.C105_cached_key",
    "Goost.Props.C105_cached_cfb_conforms"
   ],
   "note": "Model/Live models the classes once more with keys, key data and substitutions that are actions on the outside world; the theorems are refinements of the models used elsewhere, so all other theorems about them carry over (C105_cached_cfb_conforms is an example). The relations are in Spec/Live. Keys whose answers change are C106."
  },
  {
   "property": "C106",
   "status": "partial",
   "theorems": [
    "Goost.Props.C106_words_asked",
    "Goost.Props.C106_ecb_asked",
    "Goost.Props.C106_cfb_asked",
    "Goost.Props.C106_ecb_withdrawn",
    "Goost.Props.C106_cfb_withdrawn",
    "Goost.Props.C106_cfb_source_retry_partial",
    "Goost.Props.C106_ecb_source_loses",
    "Goost.Props.C106_gost89_cfb_asked",
    "Goost.Props.C106_gost89_cfb_withdrawn",
    "Goost.Props.C106_cfb_source_loses",
    "Goost.Props.C106_gost89_cfb_source_loses",
    "Goost.Props.C106_gost89_cfb_source_retry_partial",
    "Goost.Props.C106_mac_asked",
    "Goost.Props.C106_mac_withdrawn",
    "Goost.Props.C106_data_mac_asked",
    "Goost.Props.C106_data_mac_withdrawn"
   ],
   "note": "False of the code for reads: an ECBSource takes the block before it asks the key (C106_ecb_source_loses), and a CFBSource that fails in a read of several blocks has taken the first ones and discards them (C106_cfb_source_loses, C106_gost89_cfb_source_loses). The partial theorems cover reads that fail at their first block. The sinks and the authentication codes are covered without restriction (Props/Token has the part about gost89 and the codes)."
  },
  {
   "property": "C107",
   "status": "proved",
   "theorems": [
    "Goost.Props.C107_ctr",
    "Goost.Props.C107_mac",
    "Goost.Props.C107_calls",
    "Goost.Props.C107_calls_through_ctr",
    "Goost.Props.C107_failure",
    "Goost.Props.C107_null",
    "Goost.Props.C107_ctr_null",
    "Goost.Props.C107_pipe"
   ],
   "note": "Model/KuzLive models Imit and StCTREncrypted with iterators whose functions are actions on the outside world. C107_ctr gives the contract of its hypothesis back for the encrypted stream, so it applies to layers of any depth. C107_mac rests on C50 for a list. The keys answer always (Encrypts)."
  },
  {
   "property": "C108",
   "status": "partial",
   "theorems": [
    "Goost.Props.C108_ecb_sink",
    "Goost.Props.C108_cfb_sink",
    "Goost.Props.C108_gost89_cfb_sink",
    "Goost.Props.C108_finalize",
    "Goost.Props.C108_gost89_finalize",
    "Goost.Props.C108_ecb_source",
    "Goost.Props.C108_cfb_source",
    "Goost.Props.C108_gost89_cfb_source",
    "Goost.Props.C108_mac",
    "Goost.Props.C108_data_mac",
    "Goost.Props.C108_ecb_sink_leaves_traces",
    "Goost.Props.C108_cfb_sink_leaves_traces",
    "Goost.Props.C108_written_twice",
    "Goost.Props.C108_ecb_source_leaves_traces",
    "Goost.Props.C108_source_no_traces_partial",
    "Goost.Props.C108_sink_no_traces_partial"
   ],
   "note": "Model/Scarce models the magma and gost89 streams and MACs once more with a budget of allocations: the world has a counter, each statement that allocates in the code takes one from it and throws bad_alloc at zero. Statements that allocate several times take one; keys and the sinks and sources below draw on their own memory. C108_*_sink, C108_*_source, C108_mac, C108_data_mac and the two finalize theorems hold without restriction. 'Leaves no trace' is false of the code for writes and reads over files and pipes (C108_ecb_sink_leaves_traces, C108_cfb_sink_leaves_traces, C108_ecb_source_leaves_traces, C108_written_twice); the partial theorems cover sinks and sources whose calls change only the object returned."
  },
  {
   "property": "C109",
   "status": "proved",
   "theorems": [
    "Goost.Props.C109_history",
    "Goost.Props.C109_key_data",
    "Goost.Props.C109_key_data_fails",
    "Goost.Props.C109_text_key",
    "Goost.Props.C109_mac_order",
    "Goost.Props.C109_after_success",
    "Goost.Props.C109_high_refuses",
    "Goost.Props.C109_low_refuses",
    "Goost.Props.C109_null",
    "Goost.Props.C109_without_effects",
    "Goost.Props.C109_ctr_streams",
    "Goost.Props.C109_ctr_streams_text_key"
   ],
   "note": "Model/KuzToken models blocks, keys, counter mode and Imit with blocks of the user that act on the outside world, and the caches as state; C109_without_effects relates it to Model/Kuznyechik. The ideal memory is in Spec/KuzToken. One key at a time (several: C111, C112); the halves do not use the key they belong to."
  },
  {
   "property": "C110",
   "status": "proved",
   "theorems": [
    "Goost.Props.C110_history",
    "Goost.Props.C110_enough",
    "Goost.Props.C110_text_key",
    "Goost.Props.C110_key_data",
    "Goost.Props.C110_block",
    "Goost.Props.C110_ctr",
    "Goost.Props.C110_mac"
   ],
   "note": "Model/ScarceKuz models the kuznyechik classes once more with a budget of allocations (see C108). Blocks are made while others are evaluated; the model has a request before each evaluation, which leaves behind the same states as the requests of the code. The order of the calls is that of C109. C110_text_key is the statement for keys given by texts, C110_history and C110_enough for halves that do something; C110_block, C110_ctr and C110_mac cover arbitrary blocks, keys and streams."
  },
  {
   "property": "C111",
   "status": "proved",
   "theorems": [
    "Goost.Props.C111_in_turns",
    "Goost.Props.C111_text_keys"
   ],
   "note": "About Model/KuzToken. In C++ each key has its own BlkCached objects; in the model the caches are numbered and OwnCaches says that the keys use different numbers. C111_text_keys concerns keys made by Key::Key(const string &)."
  },
  {
   "property": "C112",
   "status": "proved",
   "theorems": [
    "Goost.Props.C112_derived_key",
    "Goost.Props.C112_text_master"
   ],
   "note": "About Model/KuzToken. The derived key is Key(shared_ptr<const Data>) with data whose high() and low() are BlkEncrypted blocks of the master key; the caches of the master key are a part of the world the derived key acts on (Spec/ManyKeys)."
  },
  {
   "property": "C113",
   "status": "partial",
   "theorems": [
    "Goost.Props.C113_results_right_partial",
    "Goost.Props.C113_shared_key_conforms_partial",
    "Goost.Props.C113_every_thread_returns",
    "Goost.Props.C113_out_of_order",
    "Goost.Props.C113_after_first_partial",
    "Goost.Props.C113_at_once",
    "Goost.Props.C113_magma_results_right_partial",
    "Goost.Props.C113_magma_every_thread_returns",
    "Goost.Props.C113_magma_conforms_partial",
    "Goost.Props.C113_magma_out_of_order",
    "Goost.Props.C113_magma_zero_key",
    "Goost.Props.C113_magma_after_first_partial"
   ],
   "note": "False of the code where stores may become visible out of order: C113_out_of_order (the second thread encrypts under a key whose first half is zero) and C113_magma_out_of_order, C113_magma_zero_key (under the zero key). The partial theorems cover all programs and events where the order is kept, and all events once the key has been used before. C113_at_once: the interleaved threads of C65 and C66 are a special case. Loads are not delayed."
  },
  {
   "property": "C114",
   "status": "proved",
   "theorems": [
    "Goost.Props.C114_text_key",
    "Goost.Props.C114_constructor",
    "Goost.Props.C114_native_key",
    "Goost.Props.C114_container",
    "Goost.Props.C114_ecb_sink",
    "Goost.Props.C114_cfb_sink",
    "Goost.Props.C114_gost89_cfb_sink",
    "Goost.Props.C114_finalize",
    "Goost.Props.C114_ecb_source",
    "Goost.Props.C114_cfb_source",
    "Goost.Props.C114_gost89_cfb_source",
    "Goost.Props.C114_mac",
    "Goost.Props.C114_data_mac",
    "Goost.Props.C114_history",
    "Goost.Props.C114_text_key_history",
    "Goost.Props.C114_unlimited_standard"
   ],
   "note": "About Model/ScarceLive. A use makes a different number of requests when the cache is filled, so the statement (UnlessOutWith) is that there is a number that always suffices, and that with less the outcome is that of unlimited memory or bad_alloc. C114_text_key_history with C114_unlimited_standard is the statement for a key given by 64 hexadecimal digits; the other theorems cover any sink, any source and any key that answers like a key without state. C114_native_key and C114_container: the other constructors."
  },
  {
   "property": "C115",
   "status": "partial",
   "theorems": [
    "Goost.Props.C115_same",
    "Goost.Props.C115_nesting",
    "Goost.Props.C115_nesting_least",
    "Goost.Props.C115_nothing",
    "Goost.Props.C115_ctr_grows",
    "Goost.Props.C115_mac_grows",
    "Goost.Props.C115_kuznyechik_mac_grows",
    "Goost.Props.C115_no_bound",
    "Goost.Props.C115_sinks_partial"
   ],
   "note": "False of the code: C115_ctr_grows (every iterator of counter mode holds the counter block of the one before: after n blocks n + 2 destructors inside each other), C115_mac_grows (seven for every block of data), C115_kuznyechik_mac_grows (two), C115_no_bound. C115_sinks_partial is the part that holds: sinks and sources, after any number of calls. C115_nesting and C115_nesting_least bound the nesting in every history by rows of objects; C115_same says that the recorded execution is the one of C99. Missing: nothing that is true of the code."
  },
  {
   "property": "C116",
   "status": "proved",
   "theorems": [
    "Goost.Props.C116_no_use_after_free",
    "Goost.Props.C116_exists_iff_reachable",
    "Goost.Props.C116_nothing_leaks",
    "Goost.Props.C116_destroyed_for_ever",
    "Goost.Props.C116_lock_iff",
    "Goost.Props.C116_keeper",
    "Goost.Props.C116_destructors_finish",
    "Goost.Props.C116_order_decides"
   ],
   "note": "Model/Share: every thread has variables and a stack of pointers that its destructors still have to destroy; each operation on a reference count is one step, and a schedule may switch threads after any of them. What the objects compute is left out (C99 for one thread; C65, C66, C113 for the caches). Reference counts are atomic, as std::shared_ptr guarantees; one shared_ptr object is used by one thread only. C116_order_decides: an iterator given to another thread works or dereferences null depending on the schedule."
  },
  {
   "property": "C117",
   "status": "proved",
   "theorems": [
    "Goost.Props.C117_results_right",
    "Goost.Props.C117_shared_key_conforms",
    "Goost.Props.C117_without_mutex",
    "Goost.Props.C117_one_at_a_time",
    "Goost.Props.C117_no_deadlock",
    "Goost.Props.C117_after_first",
    "Goost.Props.C117_magma_results_right",
    "Goost.Props.C117_magma_conforms",
    "Goost.Props.C117_magma_one_at_a_time",
    "Goost.Props.C117_magma_no_deadlock",
    "Goost.Props.C117_magma_without_mutex",
    "Goost.Props.C117_magma_zero_key",
    "Goost.Props.C117_magma_after_first"
   ],
   "note": "Model/Mutex: memory keeps all values that a location has had, and every thread is given any value that is not older than one it knows of; locking a mutex passes on what the last owner knew. The user's mutex is modelled, /repo has none. C117_without_mutex and C117_magma_without_mutex, C117_magma_zero_key show what happens without it, although the first thread is done before the second begins; C117_after_first and C117_magma_after_first what is still true. Accesses in program order; a waiting thread may be overtaken for ever, as with std::mutex, so C117_no_deadlock says that every thread can be run to its end, not that it will be."
  },
  {
   "property": "C118",
   "status": "proved",
   "theorems": [
    "Goost.Props.C118_throws_iff",
    "Goost.Props.C118_null",
    "Goost.Props.C118_shared_gives",
    "Goost.Props.C118_adopted_gives",
    "Goost.Props.C118_base_pointer_throws",
    "Goost.Props.C118_base_pointer_users",
    "Goost.Props.C118_copy_not_shared",
    "Goost.Props.C118_iterators_of_shared",
    "Goost.Props.C118_next_null_iff",
    "Goost.Props.C118_by_the_rules",
    "Goost.Props.C118_make_shared_lives",
    "Goost.Props.C118_adopted_lives",
    "Goost.Props.C118_base_pointer_lives",
    "Goost.Props.C118_bare_lives"
   ],
   "note": "Model/Bare. C118_throws_iff says for every state and operation whether it throws; C118_iterators_of_shared and C118_by_the_rules are about histories of any length, in which the program catches exceptions. Counter mode streams and Imit take a shared_ptr; C118_base_pointer_throws and C118_base_pointer_users are about one that was made from a unique_ptr to the base class Stream. C118_make_shared_lives, C118_adopted_lives, C118_base_pointer_lives and C118_bare_lives say from the history alone whether a stream still exists and who owns it."
  },
  {
   "property": "C119",
   "status": "proved",
   "theorems": [
    "Goost.Props.C119_cfb_source_endless",
    "Goost.Props.C119_gost89_cfb_source_endless",
    "Goost.Props.C119_ecb_source_endless",
    "Goost.Props.C119_ecb_sink",
    "Goost.Props.C119_cfb_sink",
    "Goost.Props.C119_gost89_cfb_sink",
    "Goost.Props.C119_ecb_source",
    "Goost.Props.C119_cfb_source",
    "Goost.Props.C119_gost89_cfb_source",
    "Goost.Props.C119_data_mac",
    "Goost.Props.C119_mac_returns_iff",
    "Goost.Props.C119_mac_budget",
    "Goost.Props.C119_kuznyechik_mac_returns_iff",
    "Goost.Props.C119_kuznyechik_mac_budget",
    "Goost.Props.C119_ctr_returns",
    "Goost.Props.C119_ctr_endless",
    "Goost.Props.C119_ctr_begins",
    "Goost.Props.C119_magma_keys",
    "Goost.Props.C119_kuznyechik_keys"
   ],
   "note": "The loops of Imit have a budget of iterations in the model; returning is being done for some budget, and C119_mac_budget and C119_kuznyechik_mac_budget say that larger ones change nothing. The loop of CFBSource::read has the budget size + 1, which C119_cfb_source proves to be enough for every source; the other loops are recursions over the data. Reads of a FileSource, TestSource and the like are single calls. Memory is unlimited here: an endless read would run out of it or not depending on the source (C115_mac_grows)."
  },
  {
   "property": "C120",
   "status": "proved",
   "theorems": [
    "Goost.Props.C120_classic",
    "Goost.Props.C120_magma_key_iff",
    "Goost.Props.C120_magma_key",
    "Goost.Props.C120_magma_key_any_time",
    "Goost.Props.C120_blocks",
    "Goost.Props.C120_block_iff",
    "Goost.Props.C120_kuznyechik_key",
    "Goost.Props.C120_other_texts",
    "Goost.Props.C120_first_use_decides"
   ],
   "note": "Model/Locale: white space, decimal point, separator of thousands and whether there is grouping are parameters of operator>> (istringstream uses the global C++ locale) and white space of stoull (the C locale). C120_classic: Model/Text is the \"C\" locale. C120_magma_key_iff and C120_block_iff say exactly in which locales texts of digits mean what the digits say. Assumed: characters are widened to themselves; the digits of num_get are those of ASCII. Wrong grouping only sets failbit, which the code does not look at."
  },
  {
   "property": "C121",
   "status": "proved",
   "theorems": [
    "Goost.Props.C121_ecb",
    "Goost.Props.C121_cfb",
    "Goost.Props.C121_gost89_cfb",
    "Goost.Props.C121_ctr"
   ],
   "note": "MagmaCode (Spec/Codes) says that v is the code of a message whatever source supplies it. Such a relation is no fault of this code: it holds for every implementation of the standards."
  },
  {
   "property": "C122",
   "status": "proved",
   "theorems": [
    "Goost.Props.C122_with_mutex",
    "Goost.Props.C122_after_first",
    "Goost.Props.C122_calls_alone",
    "Goost.Props.C122_cfb_conforms",
    "Goost.Props.C122_gost89_cfb_conforms",
    "Goost.Props.C122_ecb_conforms",
    "Goost.Props.C122_cfb_source_conforms",
    "Goost.Props.C122_mac_conforms",
    "Goost.Props.C122_gost89_mac_conforms",
    "Goost.Props.C122_kuznyechik_with_mutex",
    "Goost.Props.C122_ctr_conforms",
    "Goost.Props.C122_kuznyechik_mac_conforms",
    "Goost.Props.C122_mac_of_encrypted_conforms",
    "Goost.Props.C122_no_deadlock"
   ],
   "note": "Model/SharedStreams transcribes the streams and codes once more, asking the shared key for one word (one block) after the other; C122_calls_alone says that this is Model/MagmaModes and Model/Gost89 when nobody else is there. Threads share only the key. The memory is that of C117, which also has the counterexample without a mutex."
  },
  {
   "property": "C123",
   "status": "proved",
   "theorems": [
    "Goost.Props.C123_interleaved",
    "Goost.Props.C123_store_buffers",
    "Goost.Props.C123_mutex",
    "Goost.Props.C123_shared_key_conforms",
    "Goost.Props.C123_alone_is_sequential",
    "Goost.Props.C123_magma_interleaved",
    "Goost.Props.C123_magma_store_buffers",
    "Goost.Props.C123_magma_conforms",
    "Goost.Props.C123_magma_mutex_conforms"
   ],
   "note": "Model/ScarceThreads puts the requests for memory of Model/ScarceKuz between the accesses of Model/Concurrent; C123_alone_is_sequential says that a thread alone is Model/ScarceKuz. A call is given a number of requests that are granted, which is arbitrary in every call. For magma the key word is what needs memory for its text, eight times at most; blocks made between two questions may also be refused. Without order of stores and without a mutex results are wrong already with memory to spare (C113, C117)."
  },
  {
   "property": "C124",
   "status": "proved",
   "theorems": [
    "Goost.Props.C124_streams",
    "Goost.Props.C124_stacks",
    "Goost.Props.C124_magma_blocks",
    "Goost.Props.C124_magma_code",
    "Goost.Props.C124_kuznyechik",
    "Goost.Props.C124_standard",
    "Goost.Props.C124_equal_machines",
    "Goost.Props.C124_machines_differ"
   ],
   "note": "A machine is what it does in the two places where the code relies on undefined behaviour (Machine in Model/Exec). Byte order is another matter (C90). The streams are those of Model/Live, whose keys may act on the world, and of Model/KuzToken."
  },
  {
   "property": "C125",
   "status": "proved",
   "theorems": [
    "Goost.Props.C125_magma_endings",
    "Goost.Props.C125_magma_filled_up",
    "Goost.Props.C125_magma_zero_byte",
    "Goost.Props.C125_exception",
    "Goost.Props.C125_magma_standard",
    "Goost.Props.C125_kuznyechik"
   ],
   "note": "The shifts of magma are those of processors that take shift counts modulo 32 (C33). C125_exception is a key with a substitution table of zeros."
  },
  {
   "property": "C126",
   "status": "proved",
   "theorems": [
    "Goost.Props.C126_blocks",
    "Goost.Props.C126_key",
    "Goost.Props.C126_no_more_questions",
    "Goost.Props.C126_two_answers",
    "Goost.Props.C126_two_answers_wrong",
    "Goost.Props.C126_needs_itself",
    "Goost.Props.C126_magma",
    "Goost.Props.C126_magma_no_more_questions",
    "Goost.Props.C126_magma_two_answers"
   ],
   "note": "Model/Reenter is Model/Kuznyechik and Model/Live once more, for one thread whose objects of the user are programs that read and change the world and evaluate blocks; the number is the depth to which calls may be nested. Nested uses are encryptions with kuznyechik keys (any blocks with consistent caches in C126_blocks) and words of magma keys. That the mixed results are wrong is shown for the answer b, of which the other nine round keys are made."
  },
  {
   "property": "C127",
   "status": "proved",
   "theorems": [
    "Goost.Props.C127_answers",
    "Goost.Props.C127_unique",
    "Goost.Props.C127_making_reads_nothing",
    "Goost.Props.C127_copies_keep",
    "Goost.Props.C127_cached_keep",
    "Goost.Props.C127_key_changed",
    "Goost.Props.C127_counters"
   ],
   "note": "Programs are lists of steps over numbered objects (Model/Views); the evaluation of blocks is that of Model/KuzToken. All public block classes are in; shifts are by 1 to 63 bits (C52). The blocks of the user show a variable of the program and do not fail or call back (C62, C126 treat such). The statement is the relation `Shows` of Spec/Views, which is functional (C127_unique)."
  },
  {
   "property": "C128",
   "status": "proved",
   "theorems": [
    "Goost.Props.C128_answers",
    "Goost.Props.C128_words_unique",
    "Goost.Props.C128_unique",
    "Goost.Props.C128_making_reads_nothing",
    "Goost.Props.C128_copies_keep",
    "Goost.Props.C128_cached_keep",
    "Goost.Props.C128_native_keep",
    "Goost.Props.C128_three_keys"
   ],
   "note": "Programs are lists of steps over numbered objects (Model/MagmaViews); calls of keys are those of Model/Live. The substitution is SboxR3412. BlkShifted is not among the blocks, because every call of it is undefined (C33, C60). Blocks and key data of the user show a variable of the program and do not fail or call back (C62, C126 treat such). The statement are the relations `Shows` and `Words` of Spec/MagmaViews, which are functional (C128_unique, C128_words_unique)."
  },
  {
   "property": "C129",
   "status": "proved",
   "theorems": [
    "Goost.Props.C129_lazy_key",
    "Goost.Props.C129_cfb_sink",
    "Goost.Props.C129_gost89_cfb_sink",
    "Goost.Props.C129_ecb_sink",
    "Goost.Props.C129_cfb_source",
    "Goost.Props.C129_gost89_cfb_source",
    "Goost.Props.C129_ecb_source",
    "Goost.Props.C129_round_trip",
    "Goost.Props.C129_mirrored",
    "Goost.Props.C129_gost89_round_trip",
    "Goost.Props.C129_gost89_mirrored",
    "Goost.Props.C129_ecb_round_trip",
    "Goost.Props.C129_within_block_lost"
   ],
   "note": "The streams are those of Model/Live. The key may be any key that gives the answers of the present state (Follows in Spec/Rekey); C129_lazy_key says that LazyKey over key data and a substitution of the user is one. The state does not change during a call (C126 treats keys that are changed while they are being asked). C129_within_block_lost is the negative result for changes within a block. CFB data are whole blocks, as C12 and C13 need them."
  },
  {
   "property": "C130",
   "status": "proved",
   "theorems": [
    "Goost.Props.C130_answers",
    "Goost.Props.C130_unique",
    "Goost.Props.C130_making_reads_nothing",
    "Goost.Props.C130_last_size_read_nothing",
    "Goost.Props.C130_memory_keeps",
    "Goost.Props.C130_keys_keep",
    "Goost.Props.C130_same_gamma",
    "Goost.Props.C130_two_answers",
    "Goost.Props.C130_two_codes"
   ],
   "note": "Programs are lists of steps over numbered objects (Model/StreamViews); the evaluation of blocks is that of Model/KuzToken. Streams have at least one block and next() is not called at the last one (C47, C48 treat the ends); the streams are owned by a shared_ptr for the whole program (C99 and C118 treat the rest). Streams of the user show variables of the program and do not fail or call back (C62, C126). The statement is the relation `Answers` of Spec/StreamViews, which is functional (C130_unique)."
  },
  {
   "property": "C131",
   "status": "proved",
   "theorems": [
    "Goost.Props.C131_round",
    "Goost.Props.C131_reached",
    "Goost.Props.C131_two_rounds",
    "Goost.Props.C131_path",
    "Goost.Props.C131_parities",
    "Goost.Props.C131_masks",
    "Goost.Props.C131_mask_exists"
   ],
   "note": "Counted are round keys (rawBlock), whole keys (rawKey) or blocks, with Set.ncard. The bounds for two rounds are what follows from the number of active bytes (at least 17 in two rounds) and the largest entry of the difference table; that they are reached is not claimed. For three rounds and more the code derives round keys from the key, so independence, which such counts need, does not hold, and nothing is claimed."
  },
  {
   "property": "C132",
   "status": "proved",
   "theorems": [
    "Goost.Props.C132_rounds",
    "Goost.Props.C132_round",
    "Goost.Props.C132_round_reached",
    "Goost.Props.C132_active",
    "Goost.Props.C132_path",
    "Goost.Props.C132_forwarded"
   ],
   "note": "Counted are key words (wordKey) or whole keys (nativeKey) with Set.ncard; C132_rounds ties the rounds of the specification to BlkForwarded and BlkEncrypted, for every usable key. The count for one round is shown to be reached, those for eight rounds are not claimed to be. The 32 rounds of an encryption use each key word four times, so the counts, which need independent words, stop at the eight rounds with different words; C132_active, which counts no keys, is about all 32."
  },
  {
   "property": "C133",
   "status": "proved",
   "theorems": [
    "Goost.Props.C133_magma",
    "Goost.Props.C133_base",
    "Goost.Props.C133_kuznyechik",
    "Goost.Props.C133_magma_last_two",
    "Goost.Props.C133_kuznyechik_last_two",
    "Goost.Props.C133_magma_no_exchange",
    "Goost.Props.C133_kuznyechik_no_exchange"
   ],
   "note": "IsEven (Spec/EvenPermutations) is defined by lists of exchanges, without Mathlib; the proof uses the sign of permutations. For the 128-bit cipher a machine with unaligned loads is assumed, as for C37."
  },
  {
   "property": "C134",
   "status": "proved",
   "theorems": [
    "Goost.Props.C134_standard",
    "Goost.Props.C134_forwarded",
    "Goost.Props.C134_backwarded",
    "Goost.Props.C134_nothing_learned",
    "Goost.Props.C134_needs_bijection"
   ],
   "note": "Keys are LazyKey objects made from eight native words, counted with Set.ncard. For the whole encryption, which uses each word four times, no such statement is made."
  },
  {
   "property": "C135",
   "status": "proved",
   "theorems": [
    "Goost.Props.C135_forwarded",
    "Goost.Props.C135_backwarded",
    "Goost.Props.C135_both",
    "Goost.Props.C135_back",
    "Goost.Props.C135_blocks",
    "Goost.Props.C135_needs_different"
   ],
   "note": "The theorem is about the rounds, with a key of the user whose tables are arbitrary functions; it says nothing about the substitution of the standard, nor about BlkEncrypted, which uses each table four times. C135_both admits questions in both directions; C135_back says that these are answered rightly. C135_blocks is the count behind it, C135_needs_different shows that questions must differ."
  },
  {
   "property": "C136",
   "status": "proved",
   "theorems": [
    "Goost.Props.C136_in_turns",
    "Goost.Props.C136_enough",
    "Goost.Props.C136_text_keys"
   ],
   "note": "C110 and C111 together: the keys are those of C111, each use is an attempt of C110. OwnCaches says that the keys are separate objects."
  },
  {
   "property": "C137",
   "status": "proved",
   "theorems": [
    "Goost.Props.C137_copies",
    "Goost.Props.C137_answers",
    "Goost.Props.C137_key_copied",
    "Goost.Props.C137_key_remade",
    "Goost.Props.C137_cached_copied"
   ],
   "note": "The programs are those of C127 with two more steps, a copy and letting go. plain is the program without copies; C127 says what it returns. Copying an object of a class of the user is the user's affair: here it shows the same variable."
  },
  {
   "property": "C138",
   "status": "proved",
   "theorems": [
    "Goost.Props.C138_undo_themselves",
    "Goost.Props.C138_unchanged",
    "Goost.Props.C138_encrypted",
    "Goost.Props.C138_decrypted",
    "Goost.Props.C138_own_ciphertexts"
   ],
   "note": "lastSixteen names the composition of the three public blocks. The counts are of blocks, exact, for every key; which blocks they are depends on the key."
  },
  {
   "property": "C139",
   "status": "proved",
   "theorems": [
    "Goost.Props.C139_one_round_ahead",
    "Goost.Props.C139_decrypted",
    "Goost.Props.C139_tells_the_key",
    "Goost.Props.C139_needs_equal_words"
   ],
   "note": "The first two theorems are for every key class and substitution; the next says that the transform of one word under the standard substitution determines the key word; the last is a concrete key with different words for which the relation fails."
  }
 ]
}