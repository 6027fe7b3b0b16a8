{
 "claims": [
  {
   "property": "C01",
   "status": "proved",
   "theorems": [
    "Spf.Props.C01_adder",
    "Spf.Props.C01_adder_rejects_zero_width"
   ],
   "note": ""
  },
  {
   "property": "C02",
   "status": "proved",
   "theorems": [
    "Spf.Props.C02_subtractor"
   ],
   "note": ""
  },
  {
   "property": "C03",
   "status": "proved",
   "theorems": [
    "Spf.Props.C03_negator"
   ],
   "note": ""
  },
  {
   "property": "C04",
   "status": "proved",
   "theorems": [
    "Spf.Props.C04_and",
    "Spf.Props.C04_or",
    "Spf.Props.C04_circuit_and"
   ],
   "note": ""
  },
  {
   "property": "C05",
   "status": "proved",
   "theorems": [
    "Spf.Props.C05_equal",
    "Spf.Props.C05_not_equal"
   ],
   "note": ""
  },
  {
   "property": "C06",
   "status": "proved",
   "theorems": [
    "Spf.Props.C06_unsigned_compare"
   ],
   "note": ""
  },
  {
   "property": "C07",
   "status": "proved",
   "theorems": [
    "Spf.Props.C07_signed_compare"
   ],
   "note": ""
  },
  {
   "property": "C08",
   "status": "proved",
   "theorems": [
    "Spf.Props.C08_shift_left",
    "Spf.Props.C08_shift_right",
    "Spf.Props.C08_arithmetic_shift_right",
    "Spf.Props.C08_rotate_left",
    "Spf.Props.C08_rotate_right",
    "Spf.Props.C08_shift_left_value",
    "Spf.Props.C08_shift_right_value",
    "Spf.Props.C08_refusals"
   ],
   "note": ""
  },
  {
   "property": "C09",
   "status": "proved",
   "theorems": [
    "Spf.Props.C09_multiplier",
    "Spf.Props.C09_refusals"
   ],
   "note": ""
  },
  {
   "property": "C10",
   "status": "partial",
   "theorems": [
    "Spf.Props.C10_widths",
    "Spf.Props.C10_reduction",
    "Spf.Props.C10_mul_sound",
    "Spf.Props.C10_mul_exact",
    "Spf.Props.C10_mul_exact_small",
    "Spf.Props.C10_unbalanced_violated",
    "Spf.Props.C10_33_violated",
    "Spf.Props.C10_signed_sound",
    "Spf.Props.nBitsAreTrue_spec",
    "Spf.Props.C10_circuit_unsigned_partial",
    "Spf.Props.C10_circuit_signed_partial",
    "Spf.Props.C10_circuit_widths",
    "Spf.Props.C10_glev_violated"
   ],
   "note": "exact product proved, on bits and on FHE circuits, for the width families the code supports; unbalanced and odd widths panic and wide Glev products build circuits that cannot run, shown by the *_violated theorems"
  },
  {
   "property": "C11",
   "status": "proved",
   "theorems": [
    "Spf.Props.C11_from_bdds",
    "Spf.Props.C11_reduced",
    "Spf.Props.C11_remap_inputs"
   ],
   "note": ""
  },
  {
   "property": "C12",
   "status": "partial",
   "theorems": [
    "Spf.Props.C12_optimize",
    "Spf.Props.C12_cse",
    "Spf.Props.C12_compact",
    "Spf.Props.C12_terminates",
    "Spf.Props.C12_reduced",
    "Spf.Props.C12_diagrams",
    "Spf.Props.C12_generators",
    "Spf.Props.C12_panic_violated",
    "Spf.Props.C12_duplicate_edges_violated"
   ],
   "note": "soundness proved for every well-formed circuit whenever the optimiser returns; for every circuit made of reduced ordered decision diagrams it provably returns a well-formed circuit; it panics on some other well-formed circuits (the *_violated theorems)"
  },
  {
   "property": "C13",
   "status": "proved",
   "theorems": [
    "Spf.Props.C13_insert_mux",
    "Spf.Props.C13_insert_bdds"
   ],
   "note": "for circuits whose selectors are exactly their inputs (what from_bdds produces)"
  },
  {
   "property": "C14",
   "status": "proved",
   "theorems": [
    "Spf.Props.C14_prune",
    "Spf.Props.C14_prune_edges"
   ],
   "note": ""
  },
  {
   "property": "C15",
   "status": "proved",
   "theorems": [
    "Spf.Props.C15_conversion"
   ],
   "note": ""
  },
  {
   "property": "C16",
   "status": "proved",
   "theorems": [
    "Spf.Props.C16_inputs",
    "Spf.Props.C16_sequential",
    "Spf.Props.C16_spawn",
    "Spf.Props.C16_circuits"
   ],
   "note": "circuits in flight together must not share an output cell, nor use one's output cell as the other's input"
  },
  {
   "property": "C17",
   "status": "proved",
   "theorems": [
    "Spf.Props.C17_callback",
    "Spf.Props.C17_circuits"
   ],
   "note": ""
  },
  {
   "property": "C18",
   "status": "proved",
   "theorems": [
    "Spf.Props.C18_progress",
    "Spf.Props.C18_terminates",
    "Spf.Props.C18_completes",
    "Spf.Props.C18_no_tokens",
    "Spf.Props.C18_circuits"
   ],
   "note": ""
  },
  {
   "property": "C19",
   "status": "proved",
   "theorems": [
    "Spf.Props.C19_errors",
    "Spf.Props.C19_completes",
    "Spf.Props.C19_circuits"
   ],
   "note": "operator panics not modelled"
  },
  {
   "property": "C20",
   "status": "partial",
   "theorems": [
    "Spf.Props.C20_pack",
    "Spf.Props.C20_unpack",
    "Spf.Props.C20_round_trip",
    "Spf.Props.C20_rejects",
    "Spf.Props.C20_client",
    "Spf.Props.C20_full_width_violated"
   ],
   "note": "violated: an integer as wide as the polynomial degree can be packed in a circuit but not encrypted or decrypted by the client"
  },
  {
   "property": "C21",
   "status": "partial",
   "theorems": [
    "Spf.Props.C21_unsigned_bounds",
    "Spf.Props.C21_unsigned",
    "Spf.Props.C21_unsigned_decode",
    "Spf.Props.C21_signed_bounds_partial",
    "Spf.Props.C21_signed",
    "Spf.Props.C21_signed_decode",
    "Spf.Props.C21_int128_violated"
   ],
   "note": "violated: the 128-bit signed bounds check overflows"
  },
  {
   "property": "C22",
   "status": "partial",
   "theorems": [
    "Spf.Props.C22_unsigned",
    "Spf.Props.C22_signed_fits",
    "Spf.Props.C22_signed_shrink_partial",
    "Spf.Props.C22_signed_violated",
    "Spf.Props.C22_unsigned_kinds_violated"
   ],
   "note": "violated: shrinking a signed integer keeps its sign bit instead of truncating; unsigned resize panics for L1 GLEV / L1 LWE"
  },
  {
   "property": "C23",
   "status": "partial",
   "theorems": [
    "Spf.Props.C23_unsigned",
    "Spf.Props.C23_unsigned_eq",
    "Spf.Props.C23_unsigned_neq",
    "Spf.Props.C23_signed_partial",
    "Spf.Props.C23_signed_eq_partial",
    "Spf.Props.C23_signed_violated"
   ],
   "note": "violated: signed operands of different widths are zero-extended"
  },
  {
   "property": "C24",
   "status": "partial",
   "theorems": [
    "Spf.Props.C24_unpacked_partial",
    "Spf.Props.C24_round_trip",
    "Spf.Props.C24_packed_partial",
    "Spf.Props.C24_violated",
    "Spf.Props.C24_packed_violated"
   ],
   "note": "Accepted exactly when the bytes start with at most N right-sized ciphertexts; the width itself is not checked: 8 zero bytes are an N-bit integer with no bits, and a packed integer of any other bit_len is accepted."
  },
  {
   "property": "C25",
   "status": "partial",
   "theorems": [
    "Spf.Props.C25_partial",
    "Spf.Props.C25_granted_partial",
    "Spf.Props.C25_violated",
    "Spf.Props.C25_two_writers_violated"
   ],
   "note": "violated: a failed shared borrow decrements the writer's mark"
  },
  {
   "property": "C26",
   "status": "proved",
   "theorems": [
    "Spf.Props.C26_spinlock",
    "Spf.Props.C26_retired"
   ],
   "note": "sequentially consistent interleavings"
  },
  {
   "property": "C27",
   "status": "proved",
   "theorems": [
    "Spf.Props.C27_roundtrip",
    "Spf.Props.C27_injective",
    "Spf.Props.C27_width_refused"
   ],
   "note": ""
  },
  {
   "property": "C28",
   "status": "partial",
   "theorems": [
    "Spf.Props.C28_decode_partial",
    "Spf.Props.C28_total",
    "Spf.Props.C28_unused_violated"
   ],
   "note": "decoding ignores unused bits of Trunc/Zext/Sext/Ret"
  },
  {
   "property": "C29",
   "status": "proved",
   "theorems": [
    "Spf.Props.C29_read_last_write",
    "Spf.Props.C29_frame",
    "Spf.Props.C29_unmapped",
    "Spf.Props.C29_history"
   ],
   "note": ""
  },
  {
   "property": "C30",
   "status": "proved",
   "theorems": [
    "Spf.Props.C30_allocation",
    "Spf.Props.C30_disjoint",
    "Spf.Props.C30_stays_mapped",
    "Spf.Props.C30_fails_only_when_full",
    "Spf.Props.C30_oversize",
    "Spf.Props.C30_allocate_at"
   ],
   "note": ""
  },
  {
   "property": "C31",
   "status": "partial",
   "theorems": [
    "Spf.Props.C31_roundtrip",
    "Spf.Props.C31_success_partial",
    "Spf.Props.C31_unaligned",
    "Spf.Props.C31_success_violated"
   ],
   "note": "round trip proved for every type; success needs one more mapped byte than the value has, because the range check includes the page after the end"
  },
  {
   "property": "C32",
   "status": "proved",
   "theorems": [
    "Spf.Props.C32_plaintext",
    "Spf.Props.C32_ciphertext",
    "Spf.Props.C32_refused"
   ],
   "note": ""
  },
  {
   "property": "C33",
   "status": "partial",
   "theorems": [
    "Spf.Props.C33_call_layout_partial",
    "Spf.Props.C33_return_value",
    "Spf.Props.C33_alignment_violated",
    "Spf.Props.C33_unaligned_sp_violated"
   ],
   "note": "proved for alignments dividing 16 and a 16-aligned stack pointer; the code violates the claim otherwise"
  },
  {
   "property": "C34",
   "status": "partial",
   "theorems": [
    "Spf.Props.C34_push",
    "Spf.Props.C34_aligned_iff",
    "Spf.Props.C34_aligned_partial",
    "Spf.Props.C34_aligned_violated",
    "Spf.Props.C34_overwrites_caller"
   ],
   "note": "padding goes in the wrong direction: aligned exactly when twice the stack pointer is a multiple of the alignment"
  },
  {
   "property": "C35",
   "status": "partial",
   "theorems": [
    "Spf.Props.C35_binary_partial",
    "Spf.Props.C35_binary_fits",
    "Spf.Props.C35_width128",
    "Spf.Props.C35_width128_violated",
    "Spf.Props.C35_signed128_violated",
    "Spf.Props.C35_width_refused",
    "Spf.Props.C35_not_neg_partial",
    "Spf.Props.C35_addc_partial",
    "Spf.Props.C35_subb_partial",
    "Spf.Props.C35_shr_partial",
    "Spf.Props.C35_shl_partial",
    "Spf.Props.C35_shl_violated",
    "Spf.Props.C35_shra_nonneg_partial",
    "Spf.Props.C35_shra_violated",
    "Spf.Props.C35_rotate_partial",
    "Spf.Props.C35_distance_violated"
   ],
   "note": "false at width 128 (mask overflow), for left shifts that lose bits, arithmetic shifts of negatives and large distances; proved everywhere else"
  },
  {
   "property": "C36",
   "status": "partial",
   "theorems": [
    "Spf.Props.C36_binary_partial",
    "Spf.Props.C36_agreement_partial",
    "Spf.Props.C36_mul33_violated",
    "Spf.Props.C36_not",
    "Spf.Props.C36_neg_violated",
    "Spf.Props.C36_addc",
    "Spf.Props.C36_subb",
    "Spf.Props.C36_cmux",
    "Spf.Props.C36_shift_by_plain_partial",
    "Spf.Props.C36_shift_by_plain_violated",
    "Spf.Props.C36_shift_encrypted_partial",
    "Spf.Props.C36_rotate_violated",
    "Spf.Props.C36_narrow_distance_violated",
    "Spf.Props.C36_shl_disagree_violated"
   ],
   "note": "disagreements proved for Neg, multiplication at unsupported widths and several shifts; agreement proved elsewhere"
  },
  {
   "property": "C37",
   "status": "partial",
   "theorems": [
    "Spf.Props.C37_zext",
    "Spf.Props.C37_sext_partial",
    "Spf.Props.C37_sext_violated",
    "Spf.Props.C37_trunc_partial",
    "Spf.Props.C37_trunc_violated",
    "Spf.Props.C37_refused",
    "Spf.Props.C37_loadi_partial",
    "Spf.Props.C37_loadi_violated"
   ],
   "note": "false only for plaintext casts to width 128"
  },
  {
   "property": "C38",
   "status": "partial",
   "theorems": [
    "Spf.Props.C38_steady_partial",
    "Spf.Props.C38_plaintext",
    "Spf.Props.C38_timely_partial",
    "Spf.Props.C38_violated"
   ],
   "note": "false when a branch condition or address is still pending when fetched (violated by a concrete program and schedule); proved for every program in which this cannot happen, in particular plaintext programs"
  },
  {
   "property": "C39",
   "status": "partial",
   "theorems": [
    "Spf.Props.C39_progress_partial",
    "Spf.Props.C39_deadlock_free_partial",
    "Spf.Props.C39_termination",
    "Spf.Props.C40_hang_violated"
   ],
   "note": "all schedules; except after a failed dispatch, where the hang is real: C40_hang_violated"
  },
  {
   "property": "C40",
   "status": "partial",
   "theorems": [
    "Spf.Props.C40_hang_violated",
    "Spf.Props.C40_violated",
    "Spf.Props.C40_partial"
   ],
   "note": "an error in the address computation of a load or store hangs run_program; every other fault is reported"
  },
  {
   "property": "C41",
   "status": "partial",
   "theorems": [
    "Spf.Props.C41_violated",
    "Spf.Props.C41_partial",
    "Spf.Props.C41_stops_partial"
   ],
   "note": "the limit is per instruction, not in total"
  },
  {
   "property": "C42",
   "status": "partial",
   "theorems": [
    "Spf.Props.C42_violated",
    "Spf.Props.C42_partial",
    "Spf.Props.C42_plaintext"
   ],
   "note": "gas reads registers that may be pending"
  },
  {
   "property": "C43",
   "status": "partial",
   "theorems": [
    "Spf.Props.C43_violated",
    "Spf.Props.C43_path_partial",
    "Spf.Props.C43_partial"
   ],
   "note": "false when the condition is pending; proved otherwise"
  },
  {
   "property": "C44",
   "status": "partial",
   "theorems": [
    "Spf.Props.C44_decode_encode_partial",
    "Spf.Props.C44_bound_tight",
    "Spf.Props.C44_wide_violated",
    "Spf.Props.C44_wide_release_violated",
    "Spf.Props.C44_zero_bits_violated"
   ],
   "note": "proved for precisions 1..31; the code panics for precisions of 32 bits and more"
  },
  {
   "property": "C45",
   "status": "partial",
   "theorems": [
    "Spf.Props.C45_digits_partial",
    "Spf.Props.C45_recompose_partial",
    "Spf.Props.C45_poly_digits",
    "Spf.Props.C45_full_width_violated"
   ],
   "note": "proved for every decomposition leaving at least one low bit; the code accepts but panics on full-width decompositions"
  },
  {
   "property": "C46",
   "status": "proved",
   "theorems": [
    "Spf.Props.C46_rotation",
    "Spf.Props.C46_compose",
    "Spf.Props.C46_inverse",
    "Spf.Props.cls_determines"
   ],
   "note": ""
  },
  {
   "property": "C47",
   "status": "proved",
   "theorems": [
    "Spf.Props.C47_mad",
    "Spf.Props.C47_refusals"
   ],
   "note": ""
  },
  {
   "property": "C48",
   "status": "proved",
   "theorems": [
    "Spf.Props.C48_pow_k",
    "Spf.Props.C48_mul",
    "Spf.Props.C48_add",
    "Spf.Props.C48_even_keeps_stale_contents"
   ],
   "note": ""
  },
  {
   "property": "C49",
   "status": "proved",
   "theorems": [
    "Spf.Props.C49_sample_extract"
   ],
   "note": ""
  },
  {
   "property": "C50",
   "status": "proved",
   "theorems": [
    "Spf.Props.C50_lwe",
    "Spf.Props.C50_lwe_decode",
    "Spf.Props.C50_trivial"
   ],
   "note": ""
  },
  {
   "property": "C51",
   "status": "partial",
   "theorems": [
    "Spf.Props.C51_glwe_partial",
    "Spf.Props.C51_reused_buffer",
    "Spf.Props.C51_reused_buffer_violated"
   ],
   "note": "proved for zeroed buffers; encryption accumulates into a reused buffer, which breaks the claim"
  },
  {
   "property": "C52",
   "status": "proved",
   "theorems": [
    "Spf.Props.C52_add",
    "Spf.Props.C52_sub",
    "Spf.Props.C52_poly_mad",
    "Spf.Props.C52_scalar_mad",
    "Spf.Props.C52_neg",
    "Spf.Props.C52_rotate",
    "Spf.Props.C52_monomial",
    "Spf.Props.C52_lwe"
   ],
   "note": ""
  },
  {
   "property": "C53",
   "status": "partial",
   "theorems": [
    "Spf.Props.C53_keyswitch_partial",
    "Spf.Props.C53_decode_partial",
    "Spf.Props.C53_uniform_key_violated"
   ],
   "note": "violated: with overflow checks on, key generation panics for keys with an element of at least 2^log (uniform keys); full-width decompositions panic (C45)"
  },
  {
   "property": "C54",
   "status": "partial",
   "theorems": [
    "Spf.Props.C54_rounds",
    "Spf.Props.C54_range",
    "Spf.Props.C54_range_violated"
   ],
   "note": "rounding proved for all parameters; the range claim fails for log_v > 0"
  },
  {
   "property": "C55",
   "status": "proved",
   "theorems": [
    "Spf.Props.C55_lookup",
    "Spf.Props.C55_upper_half"
   ],
   "note": "rotation by any phase in the slot of m (half-open interval) leaves f(m) in the constant coefficient; the upper half of the torus gives the negation"
  },
  {
   "property": "C56",
   "status": "proved",
   "theorems": [
    "Spf.Props.C56_glev_cmux",
    "Spf.Props.C56_external_product",
    "Spf.Props.C56_cmux",
    "Spf.Props.C56_near_decodes"
   ],
   "note": "the floating point FFT is not modelled: products are exact negacyclic products plus, for CMUX, an explicit bounded error polynomial; the external product theorem has no such error term"
  },
  {
   "property": "C57",
   "status": "partial",
   "theorems": [
    "Spf.Props.C57_modulus_prime",
    "Spf.Props.C57_add_sub_partial",
    "Spf.Props.C57_mul_mad",
    "Spf.Props.C57_reduce",
    "Spf.Props.C57_reduce_wide",
    "Spf.Props.C57_unreduced",
    "Spf.Props.C57_neg_new_partial",
    "Spf.Props.C57_violated",
    "Spf.Props.C57_noncanonical_operands",
    "Spf.Props.C57_inverse"
   ],
   "note": "-0 and Fg::new(p) return the non-canonical word p; everything else exact and canonical"
  },
  {
   "property": "C58",
   "status": "proved",
   "theorems": [
    "Spf.Props.C58_barrett",
    "Spf.Props.C58_inadmissible"
   ],
   "note": ""
  },
  {
   "property": "C59",
   "status": "proved",
   "theorems": [
    "Spf.Props.C59_pairs",
    "Spf.Props.C59_count",
    "Spf.Props.C59_parallel"
   ],
   "note": ""
  },
  {
   "property": "C60",
   "status": "proved",
   "theorems": [
    "Spf.Props.C60_enumeration",
    "Spf.Props.C60_count",
    "Spf.Props.C60_new_errors",
    "Spf.Props.C60_fused",
    "Spf.Props.C60_rank",
    "Spf.Props.C60_unrank",
    "Spf.Props.C60_inverse"
   ],
   "note": ""
  },
  {
   "property": "C61",
   "status": "proved",
   "theorems": [
    "Spf.Props.C61_no_alias",
    "Spf.Props.C61_allocate_total"
   ],
   "note": ""
  },
  {
   "property": "C62",
   "status": "proved",
   "theorems": [
    "Spf.Props.C62_pow",
    "Spf.Props.C62_pow_goldilocks",
    "Spf.Props.C62_narrow_exponent_panics"
   ],
   "note": ""
  },
  {
   "property": "C63",
   "status": "proved",
   "theorems": [
    "Spf.Props.C63_otp",
    "Spf.Props.C63_otp_public"
   ],
   "note": "noise bound is a hypothesis; FFT replaced by exact products"
  },
  {
   "property": "C64",
   "status": "partial",
   "theorems": [
    "Spf.Props.C64_stack_pointer_violated"
   ],
   "note": "the code violates the claim: every run leaks its frame; proved exactly how much"
  },
  {
   "property": "C65",
   "status": "proved",
   "theorems": [
    "Spf.Props.C65_program_loaded"
   ],
   "note": ""
  },
  {
   "property": "C66",
   "status": "partial",
   "theorems": [
    "Spf.Props.C66_roundtrip_partial",
    "Spf.Props.C66_same_register_violated",
    "Spf.Props.C66_width_violated",
    "Spf.Props.C66_narrow_violated",
    "Spf.Props.C66_unaligned"
   ],
   "note": "fails for equal operand registers (panic), widths not multiple of 8, narrow ciphertexts (panic)"
  },
  {
   "property": "C67",
   "status": "proved",
   "theorems": [
    "Spf.Props.C67_root",
    "Spf.Props.C67_other_sizes",
    "Spf.Props.C67_twiddles"
   ],
   "note": ""
  },
  {
   "property": "C68",
   "status": "partial",
   "theorems": [
    "Spf.Props.C68_arith",
    "Spf.Props.C68_conversions_partial",
    "Spf.Props.C68_from_i64_violated",
    "Spf.Props.C68_extend",
    "Spf.Props.C68_inverse",
    "Spf.Props.C68_not_a_field_violated",
    "Spf.Props.C68_serialization"
   ],
   "note": "conversion from an i64 below -q is wrong; the inverse is that of crypto_bigint, taken at its documentation, and is_field is not checked"
  },
  {
   "property": "C69",
   "status": "proved",
   "theorems": [
    "Spf.Props.C69_rlwe"
   ],
   "note": "FFT replaced by exact products"
  },
  {
   "property": "C70",
   "status": "partial",
   "theorems": [
    "Spf.Props.C70_usable_partial",
    "Spf.Props.C70_uint256_violated"
   ],
   "note": "violated: 256-bit types shift a u128 by 255"
  },
  {
   "property": "C71",
   "status": "partial",
   "theorems": [
    "Spf.Props.C71_one_partial",
    "Spf.Props.C71_zero_partial",
    "Spf.Props.C71_violated"
   ],
   "note": "violated: constants of kind L1 GLEV and L1 LWE panic"
  },
  {
   "property": "C72",
   "status": "partial",
   "theorems": [
    "Spf.Props.C72_partial",
    "Spf.Props.C72_mul_partial",
    "Spf.Props.C72_violated"
   ],
   "note": "every operation but multiplication keeps all handles; multiplication renumbers the circuit and keeps only the product and collected outputs, so other handles and the cached constants are invalidated (C72_violated)"
  },
  {
   "property": "C73",
   "status": "partial",
   "theorems": [
    "Spf.Props.C73_programs_partial",
    "Spf.Props.C73_outputs_partial",
    "Spf.Props.C73_mul_partial",
    "Spf.Props.C73_panics_violated",
    "Spf.Props.C73_value_violated",
    "Spf.Props.C73_compare_violated"
   ],
   "note": "C73_mul_partial covers every operation of the fluent API, with results collected at any point; the calls refuted elsewhere (C10 Glev above 16 bits, C22, C23, C71, handles and constants across a multiplication: C72) are not accepted"
  },
  {
   "property": "C74",
   "status": "proved",
   "theorems": [
    "Spf.Props.C74_accepts_exactly",
    "Spf.Props.C74_round_trip"
   ],
   "note": "bincode and serde derives modelled from documented behaviour."
  },
  {
   "property": "C75",
   "status": "proved",
   "theorems": [
    "Spf.Props.C75_univariate"
   ],
   "note": "Fourier transform replaced by exact products plus a bounded error per CMUX; the error bound is worst case"
  },
  {
   "property": "C76",
   "status": "partial",
   "theorems": [
    "Spf.Props.C76_generalized_partial",
    "Spf.Props.C76_full_slot_violated"
   ],
   "note": "proved when two blocks of packed values fit in a slot; violated when one block fills a slot: the table is accepted and selects another function"
  },
  {
   "property": "C77",
   "status": "partial",
   "theorems": [
    "Spf.Props.C77_bivariate",
    "Spf.Props.C77_decode_carry",
    "Spf.Props.C77_documented_use_violated"
   ],
   "note": "proved with a padding bit; the documentation's own example omits it, and for it inputs (1,0) of XOR give 0"
  },
  {
   "property": "C78",
   "status": "proved",
   "theorems": [
    "Spf.Props.C78_glwe_keyswitch"
   ],
   "note": "exact products; the Fourier version has an explicit bounded error of the inverse transform"
  },
  {
   "property": "C79",
   "status": "partial",
   "theorems": [
    "Spf.Props.C79_trace_partial",
    "Spf.Props.C79_overflow_violated"
   ],
   "note": "proved for every key without overflow checks and for binary keys with them; violated with overflow checks: key generation panics for ternary or uniform keys"
  },
  {
   "property": "C80",
   "status": "partial",
   "theorems": [
    "Spf.Props.C80_scheme_switch",
    "Spf.Props.C80_fft_partial",
    "Spf.Props.C80_fft_stale_violated"
   ],
   "note": "plain version proved for every previous output; the Fourier version is proved for a zero output and violated otherwise: it accumulates onto the stale output"
  },
  {
   "property": "C81",
   "status": "partial",
   "theorems": [
    "Spf.Props.C81_binary_partial",
    "Spf.Props.C81_addc_partial",
    "Spf.Props.C81_subb_partial",
    "Spf.Props.C81_cmux",
    "Spf.Props.C81_not_partial",
    "Spf.Props.C81_neg_partial",
    "Spf.Props.C81_move",
    "Spf.Props.C81_loadi_partial",
    "Spf.Props.C81_zext",
    "Spf.Props.C81_sext_partial",
    "Spf.Props.C81_trunc_partial",
    "Spf.Props.C81_shift_by_plain_partial",
    "Spf.Props.C81_shift_encrypted_partial",
    "Spf.Props.C81_shift_plain_partial",
    "Spf.Props.C81_branch",
    "Spf.Props.C81_branch_encrypted",
    "Spf.Props.C81_ret",
    "Spf.Props.C81_store_partial",
    "Spf.Props.C81_load",
    "Spf.Props.C81_dbg"
   ],
   "note": "all instructions of the table; restrictions are those of C35-C37 and C66, where the code violates the claim"
  },
  {
   "property": "C82",
   "status": "proved",
   "theorems": [
    "Spf.Props.C82_plaintext",
    "Spf.Props.C82_background",
    "Spf.Props.C82_sources",
    "Spf.Props.C82_limit"
   ],
   "note": ""
  },
  {
   "property": "C83",
   "status": "partial",
   "theorems": [
    "Spf.Props.C83_circuit_bootstrap_partial",
    "Spf.Props.C83_stale_violated",
    "Spf.Props.C83_full_precision_violated"
   ],
   "note": "For all parameters (dimensions, degree 2^n, radixes), binary keys, masks, bounded noises and Fourier errors: key generation and circuit bootstrap succeed and the output selects by the input bit, with an explicit noise bound independent of the input noise. Violations: an output that is not fresh is accumulated into; a GGSW radix with log*count = W-1 is accepted but every call panics. The noise bounds are worst case."
  },
  {
   "property": "C84",
   "status": "partial",
   "theorems": [
    "Spf.Props.C84_any_output",
    "Spf.Props.C84_private_keyswitch_partial",
    "Spf.Props.C84_pack_partial",
    "Spf.Props.C84_stale_violated"
   ],
   "note": "proved for every additive Lipschitz map, key, mask, bounded noise and input: a fresh output gets the image, and any output m0 gets the image minus m0; so the claim is violated for outputs that are not zero, since the code does not clear the output"
  },
  {
   "property": "C85",
   "status": "partial",
   "theorems": [
    "Spf.Props.C85_circuit_bootstrap_partial",
    "Spf.Props.C85_stale_violated"
   ],
   "note": "for all dimensions, degrees 2^n, radixes, binary keys, masks, bounded noises and Fourier errors into a fresh output; violated for an output that is not fresh, which the keyswitch subtracts from"
  },
  {
   "property": "C86",
   "status": "partial",
   "theorems": [
    "Spf.Props.C86_public_keyswitch_partial",
    "Spf.Props.C86_zero_scratch_partial",
    "Spf.Props.C86_pack_partial",
    "Spf.Props.C86_scratch_violated",
    "Spf.Props.C86_accumulate_violated"
   ],
   "note": "proved for maps that write every coefficient (any scratch contents), and for zeroed scratch memory and maps that do not depend on what they wrote before; violated otherwise: the polynomial given to the map is neither initialized to 0 nor cleared between calls, contrary to the documentation"
  },
  {
   "property": "C87",
   "status": "proved",
   "theorems": [
    "Spf.Props.C87_blind_rotation",
    "Spf.Props.C87_decodes",
    "Spf.Props.C87_range"
   ],
   "note": ""
  },
  {
   "property": "C88",
   "status": "partial",
   "theorems": [
    "Spf.Props.C88_glev_partial",
    "Spf.Props.C88_ggsw_partial",
    "Spf.Props.C88_trivial_glev",
    "Spf.Props.C88_truncation_violated",
    "Spf.Props.C88_full_width_violated",
    "Spf.Props.C88_trivial_ggsw_violated",
    "Spf.Props.C83_circuit_bootstrap_partial"
   ],
   "note": "proved for messages below the base; violated for wider messages, which encryption accepts and decryption truncates, for a single digit of the full torus width, and for trivial GGSW ciphertexts, which decrypt but do not select"
  },
  {
   "property": "C89",
   "status": "partial",
   "theorems": [
    "Spf.Props.C89_rlev_partial",
    "Spf.Props.C89_rlev_selects_partial",
    "Spf.Props.C89_small_degree_violated"
   ],
   "note": "proved for all degrees of at least 16; violated below: a leftover debug print of the first 16 coefficients panics (it also writes the scaled plaintext to stderr in every case)"
  },
  {
   "property": "C90",
   "status": "partial",
   "theorems": [
    "Spf.Props.C90_add_partial",
    "Spf.Props.C90_sub_partial",
    "Spf.Props.C90_scalar_mad_partial",
    "Spf.Props.C90_complex_mad_partial",
    "Spf.Props.C90_same_partial",
    "Spf.Props.C90_sub_violated",
    "Spf.Props.C90_scalar_mad_violated",
    "Spf.Props.C90_scalar_mad_dq_violated",
    "Spf.Props.C90_overflow_violated",
    "Spf.Props.C90_complex_mad_violated"
   ],
   "note": "Full claim violated: without AVX2 polynomial_sub adds; the AVX-512 scalar multiply-add leaves its slices when the length is not a multiple of 16 and needs AVX512DQ, which is not queried; builds with overflow checks panic on wrap-around; degrees below 16 panic on x86-64. Proved under the conditions that exclude these; floating point is exact."
  },
  {
   "property": "C91",
   "status": "partial",
   "theorems": [
    "Spf.Props.C91_reduce_partial",
    "Spf.Props.C91_reduce_near",
    "Spf.Props.C91_half_violated"
   ],
   "note": "Full claim violated: a remainder of -q/2 is stored as q/2 - 1. Proved for all other integers, and within one unit for all. f64 values are exact integers."
  },
  {
   "property": "C92",
   "status": "partial",
   "theorems": [
    "Spf.Props.C92_fft_dot_partial",
    "Spf.Props.C92_fft_mul_partial",
    "Spf.Props.C92_roundtrip_partial",
    "Spf.Props.C92_half_violated",
    "Spf.Props.C92_degree_violated"
   ],
   "note": "Exact (real) arithmetic; rustfft by its documentation. Degrees 2 to 4096: equality except that one half may come out one unit lower (C92_half_violated); degrees 1 and above 4096 panic."
  },
  {
   "property": "C93",
   "status": "partial",
   "theorems": [
    "Spf.Props.C93_disjoint",
    "Spf.Props.C93_aligned",
    "Spf.Props.C93_coalesce_partial",
    "Spf.Props.C93_third_violated",
    "Spf.Props.C93_exact_fit_violated"
   ],
   "note": "Disjoint, mapped and aligned (for alignments dividing the page size) in every history. Coalescing is proved for the second request only: the free position is stored as an absolute address, so the third request always maps new pages, and an exact fit does too (both proved as violations)."
  },
  {
   "property": "C94",
   "status": "partial",
   "theorems": [
    "Spf.Props.C94_circuit_partial",
    "Spf.Props.C94_encrypt",
    "Spf.Props.C94_encrypt_succeeds",
    "Spf.Props.C94_decrypt",
    "Spf.Props.C94_end_to_end_partial",
    "Spf.Props.C94_not_violated"
   ],
   "note": "Key generation, client encryption, ciphertext-level execution of any circuit under any schedule, and decryption, with a static worst-case noise analysis; the analysis covers CMUX circuits over fresh selectors at the 128-bit parameters, and bootstraps at smaller ones. `not` negates only the constant coefficient (violated)."
  },
  {
   "property": "C95",
   "status": "partial",
   "theorems": [
    "Spf.Props.C95_is_zero",
    "Spf.Props.C95_degree",
    "Spf.Props.C95_evaluate",
    "Spf.Props.C95_add",
    "Spf.Props.C95_sub",
    "Spf.Props.C95_neg_smul",
    "Spf.Props.C95_mul",
    "Spf.Props.C95_zero_one",
    "Spf.Props.C95_div_rem_partial",
    "Spf.Props.C95_div_by_zero",
    "Spf.Props.C95_div_rem_violated",
    "Spf.Props.C95_eq_partial",
    "Spf.Props.C95_eq_complete",
    "Spf.Props.C95_eq_monic",
    "Spf.Props.C95_eq_violated"
   ],
   "note": "arithmetic, degree and division by monic polynomials proved; violated: == ignores the leading coefficient (all non-zero constants are equal), and divisors that are not monic are accepted with an unreduced remainder"
  },
  {
   "property": "C96",
   "status": "proved",
   "theorems": [
    "Spf.Props.C96_generate",
    "Spf.Props.C96_encrypt",
    "Spf.Props.C96_decrypts"
   ],
   "note": "exact noise expression and worst-case bound"
  },
  {
   "property": "C97",
   "status": "partial",
   "theorems": [
    "Spf.Props.C97_iter",
    "Spf.Props.C97_iter_rejects",
    "Spf.Props.C97_chunks_flatten",
    "Spf.Props.C97_len_violated",
    "Spf.Props.C97_iter_mut_partial",
    "Spf.Props.C97_empty_violated",
    "Spf.Props.C97_items",
    "Spf.Props.C97_parallel",
    "Spf.Props.C97_parallel_mut"
   ],
   "note": "violated: the length reported by a shared iterator never decreases; a mutable iterator over an empty entity panics with overflow checks. Rayon is represented by every way of splitting a producer."
  },
  {
   "property": "C98",
   "status": "proved",
   "theorems": [
    "Spf.Props.C98_lwe",
    "Spf.Props.C98_glwe",
    "Spf.Props.C98_glwe_fft",
    "Spf.Props.C98_check",
    "Spf.Props.C98_write"
   ],
   "note": "Justifies the structured values used by the other models in place of slices."
  },
  {
   "property": "C99",
   "status": "proved",
   "theorems": [
    "Spf.Props.C99_running",
    "Spf.Props.C99_order",
    "Spf.Props.C99_nonneg",
    "Spf.Props.C99_polytope",
    "Spf.Props.C99_convex"
   ],
   "note": "f64 replaced by exact rationals, as the property says"
  },
  {
   "property": "C100",
   "status": "partial",
   "theorems": [
    "Spf.Props.C100_build_partial",
    "Spf.Props.C100_run_partial",
    "Spf.Props.C100_mul_partial",
    "Spf.Props.C100_violated"
   ],
   "note": "False as stated: C100_violated runs a two-call program (resize a signed input to fewer bits) on ciphertexts, for all keys, noise and schedules, and the client decrypts -2 where the program means 0. The partial theorems compose C73 (fluent programs) with C94 (homomorphic execution) and C16/C17/C19 (scheduler); C100_mul_partial includes multiplication and interleaved outputs; partial because the calls refuted elsewhere (see C73_panics_violated, C73_value_violated, C73_compare_violated) are not accepted and the noise bounds are worst-case"
  },
  {
   "property": "C101",
   "status": "proved",
   "theorems": [
    "Spf.Props.C101_traverse",
    "Spf.Props.C101_acyclic",
    "Spf.Props.C101_terminates",
    "Spf.Props.C101_cycle_skipped"
   ],
   "note": ""
  },
  {
   "property": "C102",
   "status": "partial",
   "theorems": [
    "Spf.Props.C102_test_mux_circuit_partial",
    "Spf.Props.C102_arity",
    "Spf.Props.C102_from_bdds",
    "Spf.Props.C102_optimized",
    "Spf.Props.C102_optimized_partial",
    "Spf.Props.C102_holes_violated",
    "Spf.Props.C102_order_violated"
   ],
   "note": "the evaluator panics on circuits with removed nodes and orders outputs by node rather than by number; proved for circuits without holes whose outputs are numbered in node order (every circuit built from diagrams)"
  },
  {
   "property": "C103",
   "status": "proved",
   "theorems": [
    "Spf.Props.C103_used_like_new",
    "Spf.Props.C103_new_like_used",
    "Spf.Props.C103_result"
   ],
   "note": "By a simulation: a run on a used computer is a run on a new one with all instruction numbers shifted by the number of earlier instructions. C103_result transports C38's steady-program result to used computers. The runs that hang (C40) never return and so have no successor."
  },
  {
   "property": "C104",
   "status": "proved",
   "theorems": [
    "Spf.Props.C104_pack",
    "Spf.Props.C104_unpack",
    "Spf.Props.C104_roundtrip",
    "Spf.Props.C104_reject"
   ],
   "note": "The noise of packing is in closed form (width times the noise of a bit), not a hypothesis on the circuit; unpacking needs the input noise plus that of the keyswitch to be below the bootstrap limit."
  },
  {
   "property": "C105",
   "status": "proved",
   "theorems": [
    "Spf.Props.C105_program",
    "Spf.Props.C105_any_length",
    "Spf.Props.C105_faults",
    "Spf.Props.C106_processor"
   ],
   "note": "one instruction at a time on shared cells; instructions that overlap are C106"
  },
  {
   "property": "C106",
   "status": "proved",
   "theorems": [
    "Spf.Props.C106_processor",
    "Spf.Props.C106_any_length",
    "Spf.Props.C106_run_schedule"
   ],
   "note": "Cells are replaced by their contents (a cell is written once); C106_run_schedule ties the results of an instruction to every schedule of the worker threads."
  },
  {
   "property": "C107",
   "status": "proved",
   "theorems": [
    "Spf.Props.C107_stored_program",
    "Spf.Props.C107_image",
    "Spf.Props.C107_self_modifying_violated"
   ],
   "note": "C107_self_modifying_violated shows that the condition on self-modifying code is needed: the processor does not order instruction fetches after pending stores."
  },
  {
   "property": "C108",
   "status": "proved",
   "theorems": [
    "Spf.Props.C108_run_program",
    "Spf.Props.C108_noise",
    "Spf.Props.C108_frame"
   ],
   "note": "C108_run_program: programs of any length without xor/cmux/shifts; C108_noise: any instructions, given a successful noise analysis."
  },
  {
   "property": "C109",
   "status": "proved",
   "theorems": [
    "Spf.Props.C109_packed",
    "Spf.Props.C109_packed_refuses",
    "Spf.Props.C109_packed_trivial",
    "Spf.Props.C109_unpacked",
    "Spf.Props.C109_secret",
    "Spf.Props.C109_recrypted"
   ],
   "note": "Widths up to 127 signed / 128 unsigned (signed 128-bit is C21_int128_violated)."
  },
  {
   "property": "C110",
   "status": "proved",
   "theorems": [
    "Spf.Props.C110_integer_call",
    "Spf.Props.C110_integer_call_noise"
   ],
   "note": "C110_integer_call: programs of any length without xor/cmux/shifts; C110_integer_call_noise: any instructions, given a successful noise analysis."
  },
  {
   "property": "C111",
   "status": "proved",
   "theorems": [
    "Spf.Props.C111_packed_call"
   ],
   "note": "Composes C109, C104 and C108. Programs without xor/cmux/shifts, of any length; the noise bounds are worst-case bounds on the parameters."
  },
  {
   "property": "C112",
   "status": "partial",
   "theorems": [
    "Spf.Props.C112_div_rounded_partial",
    "Spf.Props.C112_div_rounded_bound",
    "Spf.Props.C112_div_rounded_violated",
    "Spf.Props.C112_div_rounded_signed_partial",
    "Spf.Props.C112_div_rounded_signed_violated",
    "Spf.Props.C112_distance"
   ],
   "note": "Distance: proved in full (exact values, f64 rounding not modelled). Division: nearest integer proved for even divisors and nonnegative dividends; violated for every odd divisor (x / 1 gives x + 1, and panics at the maximum) and for negative dividends."
  },
  {
   "property": "C113",
   "status": "partial",
   "theorems": [
    "Spf.Props.C113_uniform",
    "Spf.Props.C113_binary",
    "Spf.Props.C113_key_uniform",
    "Spf.Props.C113_key_binary",
    "Spf.Props.C113_generated",
    "Spf.Props.C113_secret_key",
    "Spf.Props.C113_normal",
    "Spf.Props.C113_normal_violated",
    "Spf.Props.C113_from_u64_violated"
   ],
   "note": "Exact counts of generator outcomes. Violated: u32::from_u64 takes the low bits where the trait documents the high bits; Gaussian samples beyond i64 saturate. The generator itself (thread_rng) and the Gaussian distribution are not modelled."
  },
  {
   "property": "C114",
   "status": "partial",
   "theorems": [
    "Spf.Props.C114_lwe_key",
    "Spf.Props.C114_threshold",
    "Spf.Props.C114_hiding",
    "Spf.Props.C114_reconstruct",
    "Spf.Props.C114_lwe_ciphertexts",
    "Spf.Props.C114_glwe_key",
    "Spf.Props.C114_glwe_ciphertexts",
    "Spf.Props.C114_lengths_violated"
   ],
   "note": "Everything proved for operands of equal size; violated: operands of different sizes are silently truncated instead of refused."
  },
  {
   "property": "C115",
   "status": "partial",
   "theorems": [
    "Spf.Props.C115_evaluate",
    "Spf.Props.C115_evaluate_1d",
    "Spf.Props.C115_region",
    "Spf.Props.C115_level_monotone",
    "Spf.Props.C115_dimension_monotone",
    "Spf.Props.C115_inverse_accepts_partial",
    "Spf.Props.C115_dimension_violated",
    "Spf.Props.C115_levels_violated",
    "Spf.Props.C115_constraint_violated"
   ],
   "note": "Exact arithmetic in place of f64. Monotonicity proved over the whole region. Violated: the inverse refuses dimensions 368..385 (386 typed for 368) and levels 78 and 130; 78 bits are refused from dimension 1436, not 1472."
  },
  {
   "property": "C116",
   "status": "proved",
   "theorems": [
    "Spf.Props.C116_apply",
    "Spf.Props.C116_untouched",
    "Spf.Props.C116_deferred",
    "Spf.Props.C116_push",
    "Spf.Props.C116_cse",
    "Spf.Props.C116_stale"
   ],
   "note": "Refinement of apply against a named-graph semantics where names are never reused. C116_stale records that a deferred index used after its node was removed is not rejected and may designate another node (outside the hypothesis of C116_apply)."
  },
  {
   "property": "C117",
   "status": "partial",
   "theorems": [
    "Spf.Props.C117_watch",
    "Spf.Props.C117_calls_partial",
    "Spf.Props.C117_ordered_partial",
    "Spf.Props.C117_order_violated",
    "Spf.Props.C117_faulted"
   ],
   "note": "exactly the calls of program order, for every schedule of a steady program; their order is program order when no dbg reads a pending register and can differ otherwise (C117_order_violated); the steadiness condition is that of C38"
  },
  {
   "property": "C118",
   "status": "proved",
   "theorems": [
    "Spf.Props.C118_pad",
    "Spf.Props.C118_secret",
    "Spf.Props.C118_reuse_violated"
   ],
   "note": "outcomes of the generator are counted (uniform 64-bit words); the ciphertext the committee also holds is treated as what it decrypts to (an information-theoretic statement about the plaintext view; computational security of RLWE is not modelled); C118_reuse_violated shows the documented restriction to one message is necessary and not enforced"
  },
  {
   "property": "C119",
   "status": "proved",
   "theorems": [
    "Spf.Props.C119_calls",
    "Spf.Props.C119_memory",
    "Spf.Props.C119_calls_noise"
   ],
   "note": "C119_calls: programs without xor/cmux/shifts, any number of calls; C119_calls_noise: any instructions, given a noise analysis per call; by induction over the calls; memory between calls = contents after the run, unchanged page table, unrestored stack pointer (C64)"
  },
  {
   "property": "C120",
   "status": "proved",
   "theorems": [
    "Spf.Props.C120_static",
    "Spf.Props.C120_refused",
    "Spf.Props.C120_roundtrip",
    "Spf.Props.C120_load"
   ],
   "note": "reading back needs the byte after the value mapped too, as for static types (C31)"
  },
  {
   "property": "C121",
   "status": "partial",
   "theorems": [
    "Spf.Props.C121_partial",
    "Spf.Props.C121_overflow",
    "Spf.Props.C121_short",
    "Spf.Props.C121_violated"
   ],
   "note": "False as stated (C121_violated): a five-instruction plaintext loop counting down from 2^31 returns normally under every schedule after 2^32+2 units, of which a build without overflow checks reports 2, and with them panics (proved by induction over the loop, every complete run). C121_partial: below 2^32 the report is the sum of the charges, both builds, every program, limit and schedule. C121_overflow: what is reported beyond. C121_short: a steady program of at most 8589 instructions reports exactly its gas in program order, under every schedule."
  },
  {
   "property": "C122",
   "status": "proved",
   "theorems": [
    "Spf.Props.C122_trivial",
    "Spf.Props.C122_trivial_ggsw",
    "Spf.Props.C122_constants",
    "Spf.Props.C122_refuses",
    "Spf.Props.C122_circuit",
    "Spf.Props.C122_bit"
   ],
   "note": "The GGSW theorems take the worst-case noise of a bootstrap as their bound on the constants (C83); floating-point errors are arbitrary within a bound."
  },
  {
   "property": "C123",
   "status": "proved",
   "theorems": [
    "Spf.Props.C123_session",
    "Spf.Props.C123_completes"
   ],
   "note": "Noise is bounded in the worst case, given as a hypothesis on each circuit (Spec/CtNoise.noiseOp); an example carries a session of any length."
  },
  {
   "property": "C124",
   "status": "partial",
   "theorems": [
    "Spf.Props.C124_step",
    "Spf.Props.C124_session_partial"
   ],
   "note": "Language as in C73/C100 (lib: any correct table of comparison and addition diagrams); noise bounds are worst-case as in C94."
  }
 ]
}