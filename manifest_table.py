c("C01","proved","C01_adder C01_adder_rejects_zero_width")
c("C02","proved","C02_subtractor")
c("C03","proved","C03_negator")
c("C04","proved","C04_and C04_or C04_circuit_and")
c("C05","proved","C05_equal C05_not_equal")
c("C06","proved","C06_unsigned_compare")
c("C07","proved","C07_signed_compare")
c("C08","proved","C08_shift_left C08_shift_right C08_arithmetic_shift_right C08_rotate_left C08_rotate_right C08_shift_left_value C08_shift_right_value C08_refusals")
c("C09","proved","C09_multiplier C09_refusals")
c("C10","partial","C10_widths C10_reduction C10_mul_sound C10_mul_exact C10_mul_exact_small C10_unbalanced_violated C10_33_violated C10_signed_sound nBitsAreTrue_spec C10_circuit_unsigned_partial C10_circuit_signed_partial C10_circuit_widths C10_glev_violated","exact product proved, on bits and on FHE circuits, for the width families the code supports; unbalanced and odd widths panic and wide Glev products build circuits that cannot run, shown by the *_violated theorems")
c("C60","proved","C60_enumeration C60_count C60_new_errors C60_fused C60_rank C60_unrank C60_inverse")
c("C11","proved","C11_from_bdds C11_reduced C11_remap_inputs")
c("C12","partial","C12_optimize C12_cse C12_compact C12_terminates C12_reduced C12_diagrams C12_generators C12_panic_violated C12_duplicate_edges_violated","soundness proved for every well-formed circuit whenever the optimiser returns; for every circuit made of reduced ordered decision diagrams it provably returns a well-formed circuit; it panics on some other well-formed circuits (the *_violated theorems)")
c("C13","proved","C13_insert_mux C13_insert_bdds","for circuits whose selectors are exactly their inputs (what from_bdds produces)")
c("C14","proved","C14_prune C14_prune_edges")
c("C15","proved","C15_conversion")
c("C44","partial","C44_decode_encode_partial C44_bound_tight C44_wide_violated C44_wide_release_violated C44_zero_bits_violated","proved for precisions 1..31; the code panics for precisions of 32 bits and more")
c("C45","partial","C45_digits_partial C45_recompose_partial C45_poly_digits C45_full_width_violated","proved for every decomposition leaving at least one low bit; the code accepts but panics on full-width decompositions")
c("C54","partial","C54_rounds C54_range C54_range_violated","rounding proved for all parameters; the range claim fails for log_v > 0")
c("C46","proved","C46_rotation C46_compose C46_inverse cls_determines")
c("C47","proved","C47_mad C47_refusals")
c("C48","proved","C48_pow_k C48_mul C48_add C48_even_keeps_stale_contents")
c("C49","proved","C49_sample_extract")
c("C50","proved","C50_lwe C50_lwe_decode C50_trivial")
c("C51","partial","C51_glwe_partial C51_reused_buffer C51_reused_buffer_violated","proved for zeroed buffers; encryption accumulates into a reused buffer, which breaks the claim")
c("C52","proved","C52_add C52_sub C52_poly_mad C52_scalar_mad C52_neg C52_rotate C52_monomial C52_lwe")
c("C29","proved","C29_read_last_write C29_frame C29_unmapped C29_history")
c("C30","proved","C30_allocation C30_disjoint C30_stays_mapped C30_fails_only_when_full C30_oversize C30_allocate_at")
c("C31","partial","C31_roundtrip C31_success_partial C31_unaligned C31_success_violated","round trip proved for every type; success needs one more mapped byte than the value has, because the range check includes the page after the end")
c("C32","proved","C32_plaintext C32_ciphertext C32_refused")
c("C33","partial","C33_call_layout_partial C33_return_value C33_alignment_violated C33_unaligned_sp_violated","proved for alignments dividing 16 and a 16-aligned stack pointer; the code violates the claim otherwise")
c("C34","partial","C34_push C34_aligned_iff C34_aligned_partial C34_aligned_violated C34_overwrites_caller","padding goes in the wrong direction: aligned exactly when twice the stack pointer is a multiple of the alignment")
c("C64","partial","C64_stack_pointer_violated","the code violates the claim: every run leaks its frame; proved exactly how much")
c("C65","proved","C65_program_loaded")
c("C27","proved","C27_roundtrip C27_injective C27_width_refused")
c("C28","partial","C28_decode_partial C28_total C28_unused_violated","decoding ignores unused bits of Trunc/Zext/Sext/Ret")
c("C35","partial","C35_binary_partial C35_binary_fits C35_width128 C35_width128_violated C35_signed128_violated C35_width_refused C35_not_neg_partial C35_addc_partial C35_subb_partial C35_shr_partial C35_shl_partial C35_shl_violated C35_shra_nonneg_partial C35_shra_violated C35_rotate_partial C35_distance_violated","false at width 128 (mask overflow), for left shifts that lose bits, arithmetic shifts of negatives and large distances; proved everywhere else")
c("C36","partial","C36_binary_partial C36_agreement_partial C36_mul33_violated C36_not C36_neg_violated C36_addc C36_subb C36_cmux C36_shift_by_plain_partial C36_shift_by_plain_violated C36_shift_encrypted_partial C36_rotate_violated C36_narrow_distance_violated C36_shl_disagree_violated","disagreements proved for Neg, multiplication at unsupported widths and several shifts; agreement proved elsewhere")
c("C37","partial","C37_zext C37_sext_partial C37_sext_violated C37_trunc_partial C37_trunc_violated C37_refused C37_loadi_partial C37_loadi_violated","false only for plaintext casts to width 128")
c("C38","partial","C38_steady_partial C38_plaintext C38_timely_partial C38_violated","false when a branch condition or address is still pending when fetched (violated by a concrete program and schedule); proved for every program in which this cannot happen, in particular plaintext programs")
c("C39","partial","C39_progress_partial C39_deadlock_free_partial C39_termination C40_hang_violated","all schedules; except after a failed dispatch, where the hang is real: C40_hang_violated")
c("C40","partial","C40_hang_violated C40_violated C40_partial","an error in the address computation of a load or store hangs run_program; every other fault is reported")
c("C41","partial","C41_violated C41_partial C41_stops_partial","the limit is per instruction, not in total")
c("C42","partial","C42_violated C42_partial C42_plaintext","gas reads registers that may be pending")
c("C43","partial","C43_violated C43_path_partial C43_partial","false when the condition is pending; proved otherwise")
c("C66","partial","C66_roundtrip_partial C66_same_register_violated C66_width_violated C66_narrow_violated C66_unaligned","fails for equal operand registers (panic), widths not multiple of 8, narrow ciphertexts (panic)")
c("C57","partial","C57_modulus_prime C57_add_sub_partial C57_mul_mad C57_reduce C57_reduce_wide C57_unreduced C57_neg_new_partial C57_violated C57_noncanonical_operands C57_inverse","-0 and Fg::new(p) return the non-canonical word p; everything else exact and canonical")
c("C58","proved","C58_barrett C58_inadmissible","")
c("C59","proved","C59_pairs C59_count C59_parallel","")
c("C61","proved","C61_no_alias C61_allocate_total","")
c("C62","proved","C62_pow C62_pow_goldilocks C62_narrow_exponent_panics","")
c("C63","proved","C63_otp C63_otp_public","noise bound is a hypothesis; FFT replaced by exact products")
c("C67","proved","C67_root C67_other_sizes C67_twiddles","")
c("C68","partial","C68_arith C68_conversions_partial C68_from_i64_violated C68_extend C68_inverse C68_not_a_field_violated C68_serialization","conversion from an i64 below -q is wrong; the inverse is that of crypto_bigint, taken at its documentation, and is_field is not checked")
c("C69","proved","C69_rlwe","FFT replaced by exact products")
c("C16","proved","C16_inputs C16_sequential C16_spawn C16_circuits","circuits in flight together must not share an output cell, nor use one's output cell as the other's input")
c("C17","proved","C17_callback C17_circuits","")
c("C18","proved","C18_progress C18_terminates C18_completes C18_no_tokens C18_circuits","")
c("C19","proved","C19_errors C19_completes C19_circuits","operator panics not modelled")
c("C25","partial","C25_partial C25_granted_partial C25_violated C25_two_writers_violated","violated: a failed shared borrow decrements the writer's mark")
c("C26","proved","C26_spinlock C26_retired","sequentially consistent interleavings")
c("C21","partial","C21_unsigned_bounds C21_unsigned C21_unsigned_decode C21_signed_bounds_partial C21_signed C21_signed_decode C21_int128_violated","violated: the 128-bit signed bounds check overflows")
c("C70","partial","C70_usable_partial C70_uint256_violated","violated: 256-bit types shift a u128 by 255")
c("C20","partial","C20_pack C20_unpack C20_round_trip C20_rejects C20_client C20_full_width_violated","violated: an integer as wide as the polynomial degree can be packed in a circuit but not encrypted or decrypted by the client")
c("C22","partial","C22_unsigned C22_signed_fits C22_signed_shrink_partial C22_signed_violated C22_unsigned_kinds_violated","violated: shrinking a signed integer keeps its sign bit instead of truncating; unsigned resize panics for L1 GLEV / L1 LWE")
c("C23","partial","C23_unsigned C23_unsigned_eq C23_unsigned_neq C23_signed_partial C23_signed_eq_partial C23_signed_violated","violated: signed operands of different widths are zero-extended")
c("C71","partial","C71_one_partial C71_zero_partial C71_violated","violated: constants of kind L1 GLEV and L1 LWE panic")
c("C73","partial","C73_programs_partial C73_outputs_partial C73_mul_partial C73_panics_violated C73_value_violated C73_compare_violated","C73_mul_partial covers every operation of the fluent API, with results collected at any point; the calls refuted elsewhere (C10 Glev above 16 bits, C22, C23, C71, handles and constants across a multiplication: C72) are not accepted")
c("C72","partial","C72_partial C72_mul_partial C72_violated","every operation but multiplication keeps all handles; multiplication renumbers the circuit and keeps only the product and collected outputs, so other handles and the cached constants are invalidated (C72_violated)")
c("C24","partial","C24_unpacked_partial C24_round_trip C24_packed_partial C24_violated C24_packed_violated","Accepted exactly when the bytes start with at most N right-sized ciphertexts; the width itself is not checked: 8 zero bytes are an N-bit integer with no bits, and a packed integer of any other bit_len is accepted.")
c("C74","proved","C74_accepts_exactly C74_round_trip","bincode and serde derives modelled from documented behaviour.")
c("C53","partial","C53_keyswitch_partial C53_decode_partial C53_uniform_key_violated","violated: with overflow checks on, key generation panics for keys with an element of at least 2^log (uniform keys); full-width decompositions panic (C45)")
c("C56","proved","C56_glev_cmux C56_external_product C56_cmux C56_near_decodes","the floating point FFT is not modelled: products are exact negacyclic products plus, for CMUX, an explicit bounded error polynomial; the external product theorem has no such error term")
c("C55","proved","C55_lookup C55_upper_half","rotation by any phase in the slot of m (half-open interval) leaves f(m) in the constant coefficient; the upper half of the torus gives the negation")
c("C75","proved","C75_univariate","Fourier transform replaced by exact products plus a bounded error per CMUX; the error bound is worst case")
c("C76","partial","C76_generalized_partial C76_full_slot_violated","proved when two blocks of packed values fit in a slot; violated when one block fills a slot: the table is accepted and selects another function")
c("C77","partial","C77_bivariate C77_decode_carry C77_documented_use_violated","proved with a padding bit; the documentation's own example omits it, and for it inputs (1,0) of XOR give 0")
c("C78","proved","C78_glwe_keyswitch","exact products; the Fourier version has an explicit bounded error of the inverse transform")
c("C79","partial","C79_trace_partial C79_overflow_violated","proved for every key without overflow checks and for binary keys with them; violated with overflow checks: key generation panics for ternary or uniform keys")
c("C80","partial","C80_scheme_switch C80_fft_partial C80_fft_stale_violated","plain version proved for every previous output; the Fourier version is proved for a zero output and violated otherwise: it accumulates onto the stale output")
c("C81","partial","C81_binary_partial C81_addc_partial C81_subb_partial C81_cmux C81_not_partial C81_neg_partial C81_move C81_loadi_partial C81_zext C81_sext_partial C81_trunc_partial C81_shift_by_plain_partial C81_shift_encrypted_partial C81_shift_plain_partial C81_branch C81_branch_encrypted C81_ret C81_store_partial C81_load C81_dbg","all instructions of the table; restrictions are those of C35-C37 and C66, where the code violates the claim")
c("C82","proved","C82_plaintext C82_background C82_sources C82_limit","")
c("C83","partial","C83_circuit_bootstrap_partial C83_stale_violated C83_full_precision_violated","For all parameters (dimensions, degree 2^n, radixes), binary keys, masks, bounded noises and Fourier errors: key generation and circuit bootstrap succeed and the output selects by the input bit, with an explicit noise bound independent of the input noise. Violations: an output that is not fresh is accumulated into; a GGSW radix with log*count = W-1 is accepted but every call panics. The noise bounds are worst case.")
c("C84","partial","C84_any_output C84_private_keyswitch_partial C84_pack_partial C84_stale_violated","proved for every additive Lipschitz map, key, mask, bounded noise and input: a fresh output gets the image, and any output m0 gets the image minus m0; so the claim is violated for outputs that are not zero, since the code does not clear the output")
c("C85","partial","C85_circuit_bootstrap_partial C85_stale_violated","for all dimensions, degrees 2^n, radixes, binary keys, masks, bounded noises and Fourier errors into a fresh output; violated for an output that is not fresh, which the keyswitch subtracts from")
c("C86","partial","C86_public_keyswitch_partial C86_zero_scratch_partial C86_pack_partial C86_scratch_violated C86_accumulate_violated","proved for maps that write every coefficient (any scratch contents), and for zeroed scratch memory and maps that do not depend on what they wrote before; violated otherwise: the polynomial given to the map is neither initialized to 0 nor cleared between calls, contrary to the documentation")
c("C87","proved","C87_blind_rotation C87_decodes C87_range","")
c("C88","partial","C88_glev_partial C88_ggsw_partial C88_trivial_glev C88_truncation_violated C88_full_width_violated C88_trivial_ggsw_violated C83_circuit_bootstrap_partial","proved for messages below the base; violated for wider messages, which encryption accepts and decryption truncates, for a single digit of the full torus width, and for trivial GGSW ciphertexts, which decrypt but do not select")
c("C89","partial","C89_rlev_partial C89_rlev_selects_partial C89_small_degree_violated","proved for all degrees of at least 16; violated below: a leftover debug print of the first 16 coefficients panics (it also writes the scaled plaintext to stderr in every case)")
c("C90","partial","C90_add_partial C90_sub_partial C90_scalar_mad_partial C90_complex_mad_partial C90_same_partial C90_sub_violated C90_scalar_mad_violated C90_scalar_mad_dq_violated C90_overflow_violated C90_complex_mad_violated","Full claim violated: without AVX2 polynomial_sub adds; the AVX-512 scalar multiply-add leaves its slices when the length is not a multiple of 16 and needs AVX512DQ, which is not queried; builds with overflow checks panic on wrap-around; degrees below 16 panic on x86-64. Proved under the conditions that exclude these; floating point is exact.")
c("C91","partial","C91_reduce_partial C91_reduce_near C91_half_violated","Full claim violated: a remainder of -q/2 is stored as q/2 - 1. Proved for all other integers, and within one unit for all. f64 values are exact integers.")
c("C92","partial","C92_fft_dot_partial C92_fft_mul_partial C92_roundtrip_partial C92_half_violated C92_degree_violated","Exact (real) arithmetic; rustfft by its documentation. Degrees 2 to 4096: equality except that one half may come out one unit lower (C92_half_violated); degrees 1 and above 4096 panic.")
c("C93","partial","C93_disjoint C93_aligned C93_coalesce_partial C93_third_violated C93_exact_fit_violated","Disjoint, mapped and aligned (for alignments dividing the page size) in every history. Coalescing is proved for the second request only: the free position is stored as an absolute address, so the third request always maps new pages, and an exact fit does too (both proved as violations).")
c("C94","partial","C94_circuit_partial C94_encrypt C94_encrypt_succeeds C94_decrypt C94_end_to_end_partial C94_not_violated","Key generation, client encryption, ciphertext-level execution of any circuit under any schedule, and decryption, with a static worst-case noise analysis; the analysis covers CMUX circuits over fresh selectors at the 128-bit parameters, and bootstraps at smaller ones. `not` negates only the constant coefficient (violated).")
c("C95","partial","C95_is_zero C95_degree C95_evaluate C95_add C95_sub C95_neg_smul C95_mul C95_zero_one C95_div_rem_partial C95_div_by_zero C95_div_rem_violated C95_eq_partial C95_eq_complete C95_eq_monic C95_eq_violated","arithmetic, degree and division by monic polynomials proved; violated: == ignores the leading coefficient (all non-zero constants are equal), and divisors that are not monic are accepted with an unreduced remainder")
c("C96","proved","C96_generate C96_encrypt C96_decrypts","exact noise expression and worst-case bound")
c("C97","partial","C97_iter C97_iter_rejects C97_chunks_flatten C97_len_violated C97_iter_mut_partial C97_empty_violated C97_items C97_parallel C97_parallel_mut","violated: the length reported by a shared iterator never decreases; a mutable iterator over an empty entity panics with overflow checks. Rayon is represented by every way of splitting a producer.")
c("C98","proved","C98_lwe C98_glwe C98_glwe_fft C98_check C98_write","Justifies the structured values used by the other models in place of slices.")
c("C99","proved","C99_running C99_order C99_nonneg C99_polytope C99_convex","f64 replaced by exact rationals, as the property says")
c("C100","partial","C100_build_partial C100_run_partial C100_mul_partial C100_violated","False as stated: C100_violated runs a two-call program (resize a signed input to fewer bits) on ciphertexts, for all keys, noise and schedules, and the client decrypts -2 where the program means 0. The partial theorems compose C73 (fluent programs) with C94 (homomorphic execution) and C16/C17/C19 (scheduler); C100_mul_partial includes multiplication and interleaved outputs; partial because the calls refuted elsewhere (see C73_panics_violated, C73_value_violated, C73_compare_violated) are not accepted and the noise bounds are worst-case")
c("C101","proved","C101_traverse C101_acyclic C101_terminates C101_cycle_skipped","")
c("C102","partial","C102_test_mux_circuit_partial C102_arity C102_from_bdds C102_optimized C102_optimized_partial C102_holes_violated C102_order_violated","the evaluator panics on circuits with removed nodes and orders outputs by node rather than by number; proved for circuits without holes whose outputs are numbered in node order (every circuit built from diagrams)")
c("C103","proved","C103_used_like_new C103_new_like_used C103_result","By a simulation: a run on a used computer is a run on a new one with all instruction numbers shifted by the number of earlier instructions. C103_result transports C38's steady-program result to used computers. The runs that hang (C40) never return and so have no successor.")
c("C104","proved","C104_pack C104_unpack C104_roundtrip C104_reject","The noise of packing is in closed form (width times the noise of a bit), not a hypothesis on the circuit; unpacking needs the input noise plus that of the keyswitch to be below the bootstrap limit.")
c("C105","proved","C105_program C105_any_length C105_faults C106_processor","one instruction at a time on shared cells; instructions that overlap are C106")
c("C106","proved","C106_processor C106_any_length C106_run_schedule","Cells are replaced by their contents (a cell is written once); C106_run_schedule ties the results of an instruction to every schedule of the worker threads.")
c("C107","proved","C107_stored_program C107_image C107_self_modifying_violated","C107_self_modifying_violated shows that the condition on self-modifying code is needed: the processor does not order instruction fetches after pending stores.")
c("C108","proved","C108_run_program C108_noise C108_frame","C108_run_program: programs of any length without xor/cmux/shifts; C108_noise: any instructions, given a successful noise analysis.")
c("C109","proved","C109_packed C109_packed_refuses C109_packed_trivial C109_unpacked C109_secret C109_recrypted","Widths up to 127 signed / 128 unsigned (signed 128-bit is C21_int128_violated).")
c("C110","proved","C110_integer_call C110_integer_call_noise","C110_integer_call: programs of any length without xor/cmux/shifts; C110_integer_call_noise: any instructions, given a successful noise analysis.")
c("C111","proved","C111_packed_call","Composes C109, C104 and C108. Programs without xor/cmux/shifts, of any length; the noise bounds are worst-case bounds on the parameters.")
c("C112","partial","C112_div_rounded_partial C112_div_rounded_bound C112_div_rounded_violated C112_div_rounded_signed_partial C112_div_rounded_signed_violated C112_distance","Distance: proved in full (exact values, f64 rounding not modelled). Division: nearest integer proved for even divisors and nonnegative dividends; violated for every odd divisor (x / 1 gives x + 1, and panics at the maximum) and for negative dividends.")
c("C113","partial","C113_uniform C113_binary C113_key_uniform C113_key_binary C113_generated C113_secret_key C113_normal C113_normal_violated C113_from_u64_violated","Exact counts of generator outcomes. Violated: u32::from_u64 takes the low bits where the trait documents the high bits; Gaussian samples beyond i64 saturate. The generator itself (thread_rng) and the Gaussian distribution are not modelled.")
c("C114","partial","C114_lwe_key C114_threshold C114_hiding C114_reconstruct C114_lwe_ciphertexts C114_glwe_key C114_glwe_ciphertexts C114_lengths_violated","Everything proved for operands of equal size; violated: operands of different sizes are silently truncated instead of refused.")
c("C115","partial","C115_evaluate C115_evaluate_1d C115_region C115_level_monotone C115_dimension_monotone C115_inverse_accepts_partial C115_dimension_violated C115_levels_violated C115_constraint_violated","Exact arithmetic in place of f64. Monotonicity proved over the whole region. Violated: the inverse refuses dimensions 368..385 (386 typed for 368) and levels 78 and 130; 78 bits are refused from dimension 1436, not 1472.")
c("C116","proved","C116_apply C116_untouched C116_deferred C116_push C116_cse C116_stale","Refinement of apply against a named-graph semantics where names are never reused. C116_stale records that a deferred index used after its node was removed is not rejected and may designate another node (outside the hypothesis of C116_apply).")
c("C117","partial","C117_watch C117_calls_partial C117_ordered_partial C117_order_violated C117_faulted","exactly the calls of program order, for every schedule of a steady program; their order is program order when no dbg reads a pending register and can differ otherwise (C117_order_violated); the steadiness condition is that of C38")
c("C118","proved","C118_pad C118_secret C118_reuse_violated","outcomes of the generator are counted (uniform 64-bit words); the ciphertext the committee also holds is treated as what it decrypts to (an information-theoretic statement about the plaintext view; computational security of RLWE is not modelled); C118_reuse_violated shows the documented restriction to one message is necessary and not enforced")
c("C119","proved","C119_calls C119_memory C119_calls_noise","C119_calls: programs without xor/cmux/shifts, any number of calls; C119_calls_noise: any instructions, given a noise analysis per call; by induction over the calls; memory between calls = contents after the run, unchanged page table, unrestored stack pointer (C64)")
c("C120","proved","C120_static C120_refused C120_roundtrip C120_load","reading back needs the byte after the value mapped too, as for static types (C31)")
c("C121","partial","C121_partial C121_overflow C121_short C121_violated","False as stated (C121_violated): a five-instruction plaintext loop counting down from 2^31 returns normally under every schedule after 2^32+2 units, of which a build without overflow checks reports 2, and with them panics (proved by induction over the loop, every complete run). C121_partial: below 2^32 the report is the sum of the charges, both builds, every program, limit and schedule. C121_overflow: what is reported beyond. C121_short: a steady program of at most 8589 instructions reports exactly its gas in program order, under every schedule.")
c("C122","proved","C122_trivial C122_trivial_ggsw C122_constants C122_refuses C122_circuit C122_bit","The GGSW theorems take the worst-case noise of a bootstrap as their bound on the constants (C83); floating-point errors are arbitrary within a bound.")
c("C123","proved","C123_session C123_completes","Noise is bounded in the worst case, given as a hypothesis on each circuit (Spec/CtNoise.noiseOp); an example carries a session of any length.")
c("C124","partial","C124_step C124_session_partial","Language as in C73/C100 (lib: any correct table of comparison and addition diagrams); noise bounds are worst-case as in C94.")
