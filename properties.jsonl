{"id": "C01", "title": "Adder circuits add", "statement": "The adder circuit built for operands of n and m bits (with or without a carry-in wire) outputs max(n,m)+1 bits whose little-endian value is exactly a + b + carry-in.", "quantifier": "every pair of positive widths n, m, carry-in on or off, every operand value", "why_tests_cant": "Tests enumerate a few small widths; the circuit generator is recursive in the width and callers use 8..256 bits, whose input spaces cannot be enumerated.", "anchors": ["mux_circuits/src/add.rs: ripple_carry_adder, full_adder"]}
{"id": "C02", "title": "Subtractor circuits subtract with borrow", "statement": "The subtractor circuit for n-bit operands outputs the n-bit value (a - b - borrow-in) mod 2^n followed by a borrow bit that is 1 exactly when a < b + borrow-in.", "quantifier": "every width n, borrow-in on or off, every operand value", "why_tests_cant": "Exhaustive checking is impossible beyond tiny widths.", "anchors": ["mux_circuits/src/sub.rs: full_subtractor"]}
{"id": "C03", "title": "Negation circuit is two's complement", "statement": "The negation circuit for n bits outputs (2^n - a) mod 2^n.", "quantifier": "every width n and every operand value", "why_tests_cant": "The copy-until-first-one recurrence has to hold at every position for every width.", "anchors": ["mux_circuits/src/neg.rs: negator"]}
{"id": "C04", "title": "Bitwise circuits", "statement": "The AND and OR circuits for n-bit operands output, at every bit position, the AND / OR of the two operand bits.", "quantifier": "every width n, every operand value, every bit position", "why_tests_cant": "Only a sample of widths and values is testable.", "anchors": ["mux_circuits/src/and.rs: make_and_circuit", "mux_circuits/src/or.rs: make_or_circuit"]}
{"id": "C05", "title": "Equality circuits", "statement": "The equality / inequality circuits on n-bit operands output 1 exactly when the operands are equal / different.", "quantifier": "every width n and every pair of operands", "why_tests_cant": "2^(2n) inputs.", "anchors": ["mux_circuits/src/comparisons.rs: compare_equal, compare_not_equal"]}
{"id": "C06", "title": "Unsigned ordering circuits", "statement": "For each of the four (greater?, or-equal?) settings the comparison circuit outputs 1 exactly when a > b, a >= b, a < b, a <= b respectively, reading operands as unsigned.", "quantifier": "every width n, the four modes, every pair of operands", "why_tests_cant": "2^(2n) inputs for each width.", "anchors": ["mux_circuits/src/comparisons.rs: compare_or_maybe_equal"]}
{"id": "C07", "title": "Signed ordering circuits", "statement": "Same as the unsigned orderings but reading both operands as two's complement.", "quantifier": "every width n >= 1, the four modes, every pair of operands", "why_tests_cant": "The sign-bit case split interacts with every lower bit; unbounded input space.", "anchors": ["mux_circuits/src/comparisons.rs: compare_or_maybe_equal_signed"]}
{"id": "C08", "title": "Barrel shifter circuits", "statement": "The shift circuit outputs the logical-left, logical-right, arithmetic-right shift or rotation of its operand by the amount on its shift wires; amounts at or beyond the operand width produce all zeros (logical) or all sign bits (arithmetic), and rotations are modulo the width.", "quantifier": "every operand width, every legal shift-wire count, every mode, every operand and every amount", "why_tests_cant": "Input space exponential in width + shift bits; excess shift bits are the corner tests miss.", "anchors": ["mux_circuits/src/bitshift.rs: bitshift"]}
{"id": "C09", "title": "Multiplier circuits multiply", "statement": "The array multiplier circuit for n-bit and m-bit operands outputs the n+m bit product.", "quantifier": "every n, m and every pair of operands", "why_tests_cant": "2^(n+m) inputs.", "anchors": ["mux_circuits/src/mul.rs: multiplier_bdd / multiplier"]}
{"id": "C10", "title": "Divide-and-conquer multiplication recombination", "statement": "Combining the four half-size products with the grade-school reduction circuit and carries yields the exact double-width product of the two operands for every way the operands are split.", "quantifier": "every split size and every operand value", "why_tests_cant": "Carry propagation through six sections must hold for all sizes.", "anchors": ["mux_circuits/src/mul.rs: gradeschool_reduce_impl, partition_integer", "parasol_runtime/src/circuits/mul.rs: mul_impl"]}
{"id": "C11", "title": "BDD to multiplexer-circuit conversion preserves meaning", "statement": "Converting a list of reduced decision diagrams into a multiplexer circuit and evaluating the circuit gives, on output i, the value of diagram i, for every assignment of the inputs.", "quantifier": "every list of well-formed decision diagrams and every input assignment", "why_tests_cant": "Sharing, constant children and terminal-only diagrams make structurally different cases unbounded in number.", "anchors": ["mux_circuits/src/lib.rs: From<&[Bdd]> for MuxCircuit"]}
{"id": "C12", "title": "Circuit optimisation preserves meaning", "statement": "Common-subexpression elimination (and index compaction) never changes the value of any output of a circuit for any input.", "quantifier": "every acyclic multiplexer circuit and every input assignment", "why_tests_cant": "Optimisation is a graph rewrite whose correctness is over all graphs.", "anchors": ["mux_circuits/src/opt.rs: common_subexpression_elimination", "mux_circuits/src/lib.rs: optimize"]}
{"id": "C13", "title": "Inserting a mux circuit preserves meaning", "statement": "Inserting a multiplexer circuit into an FHE circuit and wiring its inputs makes the returned nodes compute exactly the circuit's outputs of the wired inputs, and does not change the value of any node already in the FHE circuit.", "quantifier": "every well-formed multiplexer circuit, FHE circuit and input wiring", "why_tests_cant": "Quantifies over all graphs.", "anchors": ["parasol_runtime/src/fhe_circuit.rs: FheCircuit::insert_mux_circuit"]}
{"id": "C14", "title": "Pruning keeps required values", "statement": "Pruning an FHE circuit to a set of required nodes leaves the value of each required node unchanged and keeps only nodes some required node depends on.", "quantifier": "every acyclic circuit and every set of required nodes", "why_tests_cant": "Quantifies over all graphs.", "anchors": ["parasol_runtime/src/fhe_circuit.rs: prune"]}
{"id": "C15", "title": "Ciphertext conversion always reaches the requested type", "statement": "Requesting a conversion between any two ciphertext kinds terminates and yields a node of exactly the requested kind, through operators each of which accepts the kind it is given, and converting to the same kind inserts nothing.", "quantifier": "every ordered pair of ciphertext kinds and every existing circuit", "why_tests_cant": "Termination and well-typedness of a recursive graph builder.", "anchors": ["parasol_runtime/src/fhe_circuit.rs: insert_ciphertext_conversion"]}
{"id": "C16", "title": "Parallel circuit execution equals sequential evaluation", "statement": "Whatever the number of worker threads and the order in which ready tasks run and finish, every task of a submitted circuit runs exactly once, only after all of its inputs have been produced, and the values produced equal those of evaluating the circuit sequentially.", "quantifier": "every acyclic circuit and every interleaving of dispatch, execution and completion", "why_tests_cant": "The number of interleavings is unbounded; data races on dependency counts are schedule dependent.", "anchors": ["parasol_runtime/src/circuit_processor/mod.rs: CircuitProcessor::spawn_graph, dispatch, execute_task", "parasol_runtime/src/circuit_processor/task.rs"]}
{"id": "C17", "title": "Completion callback fires once and last", "statement": "The completion callback of a submitted circuit fires exactly once, and only after every dispatched task of the circuit has finished.", "quantifier": "every circuit and every interleaving of dispatches and completions", "why_tests_cant": "A race between the last completion and the retire message shows only in particular schedules.", "anchors": ["parasol_runtime/src/circuit_processor/completion_handler.rs: CompletionHandler"]}
{"id": "C18", "title": "Flow control never deadlocks", "statement": "With a flow-control budget of at least one token, dispatching a circuit in topological order always makes progress: in every reachable state short of completion some step is enabled, and every execution is finite.", "quantifier": "every acyclic circuit, every positive budget, every interleaving", "why_tests_cant": "Deadlock freedom is a property of all schedules.", "anchors": ["parasol_runtime/src/circuit_processor/mod.rs: run_worker_thread, flow_control"]}
{"id": "C19", "title": "Failing circuits complete with an error", "statement": "If some task of a circuit fails, the circuit still completes (the callback fires), and an error raised by one of the failing tasks is reported; without failures no error is reported.", "quantifier": "every circuit, every set of failing tasks, every interleaving", "why_tests_cant": "Needs every interleaving of failure with other completions.", "anchors": ["parasol_runtime/src/circuit_processor/mod.rs: execute_task error path", "parasol_runtime/src/circuit_processor/completion_handler.rs"]}
{"id": "C20", "title": "Packing and unpacking integers", "statement": "Packing the n encrypted bits of an integer puts bit i in coefficient i of one ciphertext, for every n from 1 up to the polynomial degree, never panics, and unpacking returns the same bits.", "quantifier": "every n in range, every bit vector, every polynomial degree", "why_tests_cant": "The tree reduction must terminate with one node for every n, powers of two or not.", "anchors": ["parasol_runtime/src/fluent/dynamic_generic_int_graph_nodes.rs: pack", "parasol_runtime/src/fluent/packed_dynamic_generic_int_graph_node.rs: unpack"]}
{"id": "C21", "title": "Integer plaintext encoding round-trips", "statement": "Encoding a plaintext integer that fits in n bits (unsigned or two's complement) to bits and decoding those bits gives the same integer.", "quantifier": "every n from 1 to 128 and every in-range value", "why_tests_cant": "Boundary widths 127/128 and negative values need all-cases reasoning.", "anchors": ["parasol_runtime/src/fluent/uint.rs: PlaintextOps for u128", "parasol_runtime/src/fluent/int.rs: PlaintextOps for i128"]}
{"id": "C22", "title": "Resizing integers preserves in-range values", "statement": "Resizing an encrypted integer to a width that can represent its value preserves the value, and resizing to a smaller width keeps the value modulo 2^(new width).", "quantifier": "every old and new width >= 1 and every value", "why_tests_cant": "All pairs of widths and values.", "anchors": ["parasol_runtime/src/fluent/dynamic_generic_int_graph_nodes.rs: resize", "parasol_runtime/src/fluent/uint.rs, int.rs: resize_config"]}
{"id": "C23", "title": "Comparing integers of different widths", "statement": "Comparing (==, !=, >, >=, <, <=) two encrypted integers of possibly different widths gives the comparison of the integers they represent, for unsigned and for signed integers.", "quantifier": "every pair of widths, both signednesses, every pair of values", "why_tests_cant": "Mixed-width padding is exercised by few tests.", "anchors": ["parasol_runtime/src/fluent/dynamic_generic_int_graph_nodes.rs: cmp, eq, neq"]}
{"id": "C24", "title": "Deserialized integers have the declared width", "statement": "Safe deserialization of an encrypted integer type of N bits either fails or returns an integer with exactly N bits, each valid for the parameters.", "quantifier": "every byte string and every N", "why_tests_cant": "Adversarial inputs.", "anchors": ["parasol_runtime/src/safe_bincode.rs: deserialize", "parasol_runtime/src/fluent/generic_int.rs: GetSize for GenericInt"]}
{"id": "C25", "title": "Shared cell never hands out conflicting borrows", "statement": "The atomic cell never has a mutable borrow alive together with any other borrow, whatever the interleaving of borrow, borrow_mut and drop calls, including calls that panic.", "quantifier": "every interleaving of operations of any number of threads", "why_tests_cant": "Requires all interleavings and failing calls.", "anchors": ["parasol_concurrency/src/lib.rs: AtomicRefCell"]}
{"id": "C26", "title": "Spinlock excludes and can be retired", "statement": "At most one holder of the spinlock exists at a time, and after a holder marks it permanently locked no later try_lock ever succeeds.", "quantifier": "every interleaving of operations of any number of threads", "why_tests_cant": "All interleavings.", "anchors": ["parasol_concurrency/src/lib.rs: Spinlock"]}
{"id": "C27", "title": "Instruction encoding round-trips", "statement": "Decoding the 64-bit encoding of any legal instruction yields that instruction; distinct legal instructions have distinct encodings.", "quantifier": "every instruction and every legal operand value", "why_tests_cant": "2^50 operand combinations.", "anchors": ["parasol_cpu/src/proc/assembly.rs: define_op!, IsaOp encode/decode"]}
{"id": "C28", "title": "Decoding is total or rejects", "statement": "Decoding any 64-bit word either yields an instruction whose encoding is that word, or rejects the word (unknown opcode error, or failed decode assertion).", "quantifier": "every 64-bit word", "why_tests_cant": "2^64 words.", "anchors": ["parasol_cpu/src/proc/assembly.rs: TryFrom<u64>"]}
{"id": "C29", "title": "Memory reads return the last write", "statement": "A byte stored at a mapped address is what any later load from that address returns until the address is stored to again; stores never change other addresses; accesses to unmapped addresses fail without changing memory.", "quantifier": "every history of allocations, stores and loads and every address", "why_tests_cant": "Unbounded histories.", "anchors": ["parasol_cpu/src/memory/mod.rs: Memory::try_load, try_store"]}
{"id": "C30", "title": "Allocations are fresh, page-aligned and disjoint", "statement": "Every successful allocation returns a page-aligned non-null address whose whole range is mapped, contained no previously mapped page, and lies inside the 32-bit address space.", "quantifier": "every history of allocations and every size", "why_tests_cant": "Unbounded histories; the search boundary at the end of memory.", "anchors": ["parasol_cpu/src/memory/mod.rs: try_allocate"]}
{"id": "C31", "title": "Multi-byte values round-trip through memory", "statement": "Writing a typed value to memory at an aligned, mapped address and loading it back yields the same value; the operation succeeds whenever every byte of the range is mapped and the address is aligned.", "quantifier": "every type size, address and value", "why_tests_cant": "Page-boundary cases over all addresses.", "anchors": ["parasol_cpu/src/memory/mod.rs: try_write_type, try_load_type, check_range_is_mapped"]}
{"id": "C32", "title": "Loads of words assemble bytes little-endian", "statement": "Loading a w-bit word from bytes yields the little-endian value of the bytes with zero or sign extension to the register width, all-plaintext bytes give a plaintext word, all-ciphertext bytes give a ciphertext word, and any mixture is refused.", "quantifier": "every byte sequence and both extensions", "why_tests_cant": "All byte combinations.", "anchors": ["parasol_cpu/src/memory/mod.rs: Word::try_from_bytes"]}
{"id": "C33", "title": "Call arguments do not overlap", "statement": "Setting up a call places every argument at an address aligned for its type, in order, with disjoint byte ranges that all lie inside the reserved call frame, with the return-value pointer after them.", "quantifier": "every list of arguments of every size and alignment and every stack pointer", "why_tests_cant": "All argument lists.", "anchors": ["parasol_cpu/src/proc/args.rs: CallData::alloc_size, set_up_function_call"]}
{"id": "C34", "title": "Stack pointer stays aligned", "statement": "Pushing an argument keeps the stack pointer aligned as the ABI requires, for every stack pointer value.", "quantifier": "every stack pointer and every argument size and alignment", "why_tests_cant": "All initial stack pointers.", "anchors": ["parasol_cpu/src/memory/mod.rs: try_push_arg_onto_stack"]}
{"id": "C35", "title": "Plaintext arithmetic matches fixed-width semantics", "statement": "Each plaintext ALU instruction on w-bit operands computes the w-bit modular / bitwise / shift / comparison result and the result fits in w bits.", "quantifier": "every width from 1 to 128, every operand, every ALU instruction", "why_tests_cant": "2^256 operand pairs.", "anchors": ["parasol_cpu/src/proc/ops/*.rs"]}
{"id": "C36", "title": "Plaintext and encrypted arithmetic agree", "statement": "For every ALU instruction, executing it on plaintext registers and executing it on encryptions of the same values give the same value.", "quantifier": "every instruction, width and operand values", "why_tests_cant": "All operands and widths.", "anchors": ["parasol_cpu/src/proc/ops/*.rs", "parasol_runtime/src/circuits/*.rs"]}
{"id": "C37", "title": "Casts", "statement": "Truncation keeps the low bits, zero extension preserves the unsigned value, sign extension preserves the signed value, on plaintext and on encrypted registers alike.", "quantifier": "every source and target width and every value", "why_tests_cant": "All widths and values.", "anchors": ["parasol_cpu/src/proc/ops/casting.rs"]}
{"id": "C38", "title": "Out-of-order execution equals program order", "statement": "The final register file and memory of a program run by the out-of-order processor equal those of running the instructions one at a time in program order, for every order in which ready instructions execute and retire.", "quantifier": "every instruction stream and every schedule", "why_tests_cant": "Unbounded programs and schedules.", "anchors": ["parasol_cpu/src/tomasulo/*.rs", "parasol_cpu/src/proc/fhe_processor.rs: dispatch_instruction"]}
{"id": "C39", "title": "Out-of-order execution makes progress", "statement": "Every dispatched instruction eventually retires: in every reachable state with an unretired instruction some instruction can execute.", "quantifier": "every instruction stream and every schedule", "why_tests_cant": "Deadlock freedom over all schedules.", "anchors": ["parasol_cpu/src/tomasulo/mod.rs", "parasol_cpu/src/proc/fhe_processor.rs"]}
{"id": "C40", "title": "Failed dispatch does not hang the processor", "statement": "If dispatching an instruction fails with an error, the run still terminates and reports that error.", "quantifier": "every program and memory state in which dispatch fails", "why_tests_cant": "Error paths at arbitrary points of arbitrary programs.", "anchors": ["parasol_cpu/src/proc/fhe_processor.rs: run_program, dispatch_instruction, try_append_memory_dependencies"]}
{"id": "C41", "title": "Gas limit bounds total gas", "statement": "A program run with gas limit G that completes successfully used at most G gas in total, and a program that would use more is stopped with an out-of-gas error.", "quantifier": "every program, limit and memory", "why_tests_cant": "Unbounded programs.", "anchors": ["parasol_cpu/src/proc/fhe_processor.rs: run_program, compute_gas"]}
{"id": "C42", "title": "Gas does not depend on the schedule", "statement": "The gas charged for a program run depends only on the program, its inputs and memory, not on the thread schedule.", "quantifier": "every program and schedule", "why_tests_cant": "Schedule-dependent.", "anchors": ["parasol_cpu/src/proc/fhe_processor.rs: compute_gas, dispatch"]}
{"id": "C43", "title": "Branches follow computed conditions", "statement": "A conditional branch is taken exactly when its condition register, as computed by the preceding instructions in program order, is non-zero (zero).", "quantifier": "every program and schedule", "why_tests_cant": "Condition values may still be in flight when the branch is fetched.", "anchors": ["parasol_cpu/src/proc/fhe_processor.rs: next_program_counter"]}
{"id": "C44", "title": "Torus encoding tolerates noise", "statement": "Decoding an encoded message plus any noise smaller in magnitude than half an encoding step returns the message, for every supported precision.", "quantifier": "every torus width, precision, message and noise below the bound", "why_tests_cant": "All noise values and precisions.", "anchors": ["sunscreen_tfhe/src/math/torus.rs: Torus::encode, decode"]}
{"id": "C45", "title": "Radix decomposition recomposes", "statement": "The signed digits of a torus element recompose to the element rounded to the top radix*count bits; each digit is in [-B/2, B/2); the rounding error is at most half a unit of the last kept digit.", "quantifier": "every legal decomposition and every torus element", "why_tests_cant": "2^64 elements times all parameters.", "anchors": ["sunscreen_tfhe/src/math/radix.rs: ScalarRadixIterator, PolynomialRadixIterator, recompose_and_add, round"]}
{"id": "C46", "title": "Monomial rotation is multiplication by X^d", "statement": "Rotating a polynomial by d (positive or negative) equals multiplying it by X^d modulo X^N + 1, for every d; rotations compose additively and rotation by -d undoes rotation by d.", "quantifier": "every polynomial, every length and every integer d", "why_tests_cant": "All lengths, all d including multiples of N and 2N.", "anchors": ["sunscreen_tfhe/src/entities/polynomial.rs: mul_by_monomial_negacyclic"]}
{"id": "C47", "title": "Polynomial multiplication is ring multiplication", "statement": "The schoolbook multiply-accumulate computes c + a*b in Z_q[X]/(X^N+1).", "quantifier": "every power-of-two length and all coefficients", "why_tests_cant": "Unbounded coefficients and lengths.", "anchors": ["sunscreen_tfhe/src/math/polynomial.rs: polynomial_mad_impl"]}
{"id": "C48", "title": "Automorphism X -> X^k", "statement": "The X -> X^k map on polynomials, for odd k, sets every coefficient, and is a ring homomorphism modulo X^N + 1.", "quantifier": "every power-of-two length, every odd k and all polynomials", "why_tests_cant": "All k and lengths.", "anchors": ["sunscreen_tfhe/src/ops/polynomial/mod.rs: polynomial_pow_k"]}
{"id": "C49", "title": "Sample extraction extracts the right coefficient", "statement": "Decrypting the LWE ciphertext extracted at index h under the extracted key yields exactly coefficient h of the decryption of the GLWE ciphertext.", "quantifier": "every GLWE ciphertext, key, degree, size and h", "why_tests_cant": "All ciphertexts.", "anchors": ["sunscreen_tfhe/src/ops/ciphertext/glwe_ciphertext_ops.rs: sample_extract"]}
{"id": "C50", "title": "LWE decryption inverts encryption", "statement": "Decrypting an LWE encryption of m with noise e gives the encoding of m plus e exactly, hence m when the noise is below the bound, even when the ciphertext buffer is reused.", "quantifier": "every key, mask, message, noise and previous buffer content", "why_tests_cant": "All random choices.", "anchors": ["sunscreen_tfhe/src/ops/encryption/lwe_encryption.rs", "sunscreen_tfhe/src/entities/lwe_secret_key.rs: decrypt"]}
{"id": "C51", "title": "GLWE decryption inverts encryption", "statement": "Decrypting a GLWE encryption of m with noise e gives m plus e exactly, even when the ciphertext buffer is reused.", "quantifier": "every key, mask, message, noise and previous buffer content", "why_tests_cant": "All random choices; reuse of buffers.", "anchors": ["sunscreen_tfhe/src/ops/encryption/glwe_encryption.rs"]}
{"id": "C52", "title": "Homomorphic linear operations", "statement": "Adding, subtracting, negating, rotating and scaling ciphertexts adds, subtracts, negates, shifts and scales the decrypted torus values exactly.", "quantifier": "every ciphertext, key and scalar", "why_tests_cant": "All ciphertexts.", "anchors": ["sunscreen_tfhe/src/ops/ciphertext/*.rs", "sunscreen_tfhe/src/ops/homomorphisms/lwe.rs"]}
{"id": "C53", "title": "Key switching preserves the message up to a bounded error", "statement": "After key switching, the decrypted torus value under the new key equals the old decrypted value minus an explicit error made of rounding error times key bits and digits times key-switching-key noise.", "quantifier": "every ciphertext, pair of keys, legal decomposition and noise", "why_tests_cant": "All ciphertexts and noises.", "anchors": ["sunscreen_tfhe/src/ops/keyswitch/lwe_keyswitch.rs: keyswitch_lwe_to_lwe", "sunscreen_tfhe/src/ops/keyswitch/lwe_keyswitch_key.rs"]}
{"id": "C54", "title": "Modulus switching rounds", "statement": "Switching to modulus 2^k rounds to the nearest multiple and the result is a valid element of the new modulus.", "quantifier": "every torus element and every parameter triple", "why_tests_cant": "All elements and parameters.", "anchors": ["sunscreen_tfhe/src/ops/ciphertext/lwe_ciphertext_ops.rs: modulus_switch"]}
{"id": "C55", "title": "Lookup tables evaluate the function", "statement": "Rotating the lookup-table polynomial of f by any phase within half a slot of message m leaves the encoding of f(m) in the constant coefficient.", "quantifier": "every table size, precision, function and phase", "why_tests_cant": "All functions and phases.", "anchors": ["sunscreen_tfhe/src/ops/bootstrapping/programmable_bootstrapping.rs: generate_lut, generalized_programmable_bootstrap"]}
{"id": "C56", "title": "External product and CMUX select", "statement": "The external product of a GGSW encryption of a bit with a GLWE ciphertext decrypts to bit times the GLWE message up to an explicit error, and CMUX decrypts to the selected input's message up to the same error.", "quantifier": "every ciphertext, key and bit", "why_tests_cant": "All ciphertexts.", "anchors": ["sunscreen_tfhe/src/ops/ciphertext/glwe_ciphertext_ops.rs: glwe_ggsw_mad", "sunscreen_tfhe/src/ops/fft_ops.rs: cmux"]}
{"id": "C57", "title": "Goldilocks field arithmetic is canonical and exact", "statement": "Addition, subtraction, negation, multiplication and reduction in the Goldilocks field return the canonical representative of the exact result mod 2^64 - 2^32 + 1.", "quantifier": "every pair of field elements and every 64-bit input to the constructor", "why_tests_cant": "2^128 pairs; boundary values 0 and p.", "anchors": ["sunscreen_tfhe/src/math/goldilocks_field.rs: Fg"]}
{"id": "C58", "title": "Barrett reduction is exact", "statement": "Barrett reduction of any double-width value returns it modulo the modulus.", "quantifier": "every limb count, every admissible modulus and every double-width value", "why_tests_cant": "All values.", "anchors": ["sunscreen_math/src/ring/barrett.rs: barrett_reduce"]}
{"id": "C59", "title": "Triangular pair iteration", "statement": "Iterating triangular pairs of a sequence yields every pair (i, j) with i <= j exactly once, in lexicographic order, then ends.", "quantifier": "every sequence", "why_tests_cant": "All lengths.", "anchors": ["sunscreen_tfhe/src/iteration/triangular_pairs.rs"]}
{"id": "C60", "title": "Combination enumeration and ranking", "statement": "Iterating the combinations of t out of n yields every strictly increasing t-sequence below n exactly once in lexicographic order; the number of them is the reported count; ranking and unranking are mutually inverse.", "quantifier": "every n >= 1 and t <= n", "why_tests_cant": "All n, t.", "anchors": ["sunscreen_math/src/combination.rs"]}
{"id": "C61", "title": "Scratch buffers do not alias", "statement": "Scratch buffers alive at the same time never share storage and each is at least as large and as aligned as requested, whatever the order of allocation and release.", "quantifier": "every history of allocations and releases", "why_tests_cant": "Unbounded histories.", "anchors": ["sunscreen_tfhe/src/scratch.rs"]}
{"id": "C62", "title": "Exponentiation", "statement": "Raising to a power computes the exact power in the given ring for every 64-bit exponent.", "quantifier": "every base and exponent", "why_tests_cant": "All exponents.", "anchors": ["sunscreen_tfhe/src/math/mod.rs: Pow"]}
{"id": "C63", "title": "One-time-pad recryption", "statement": "Decrypting with the secret pad the decryption of a recrypted message returns the original message.", "quantifier": "every message, every pad", "why_tests_cant": "All messages.", "anchors": ["parasol_runtime/src/crypto/recryption.rs"]}
{"id": "C64", "title": "Running a program leaves the stack pointer where it was", "statement": "After a program has run to completion, the memory's stack pointer is what it was before the call, so that any number of runs can be made on one memory.", "quantifier": "every number of runs and every argument list", "why_tests_cant": "Tests run a program once or twice per memory; exhaustion of the stack shows only after as many runs as fit into it.", "anchors": ["parasol_cpu/src/proc/fhe_processor.rs: set_up_function_call, run_program_with_options", "parasol_cpu/src/memory/mod.rs: try_push_arg_onto_stack"]}
{"id": "C65", "title": "Loading a program puts every segment's bytes in memory", "statement": "After loading an executable, every address of every loadable segment is mapped and holds the file's byte, or zero beyond the bytes present in the file.", "quantifier": "every list of loadable segments with disjoint address ranges, every file and every stack configuration", "why_tests_cant": "Tests load one or two ELF files; segments sharing pages with each other or the stack and zero-filled tails are unbounded in number.", "anchors": ["parasol_cpu/src/memory/mod.rs: new_from_elf_with_config, try_allocate_at, try_store"]}
{"id": "C66", "title": "Store then load returns the stored value", "statement": "A store instruction of a register followed by a load of the same width from the same address yields the bits stored and changes no other byte; misaligned accesses are refused.", "quantifier": "every register content, address, offset, access width and choice of operand registers", "why_tests_cant": "All values, addresses and widths, plaintext and encrypted.", "anchors": ["parasol_cpu/src/proc/ops/load.rs: load", "parasol_cpu/src/proc/ops/store.rs: store", "parasol_cpu/src/proc/ops/mod.rs: is_invalid_load_store_alignment"]}
{"id": "C67", "title": "Roots of unity and NTT twiddle tables", "statement": "Asking the Goldilocks field for an n-th root of unity returns a primitive one, and the number-theoretic transform's tables hold its successive powers and their inverses.", "quantifier": "every power of two up to 2^32", "why_tests_cant": "Tables of up to 2^32 entries; order of an element cannot be sampled.", "anchors": ["sunscreen_tfhe/src/math/goldilocks_field.rs: root_of_unity", "sunscreen_tfhe/src/math/fft/cyclic/mod.rs"]}
{"id": "C68", "title": "Integers modulo q form a ring", "statement": "Addition, subtraction, negation, multiplication and conversion from native integers in Z_q return the residue of the exact integer result, for any multi-limb modulus the configuration accepts; over a field every non-zero element has an inverse, which inverse() returns; a serialized element reads back as itself and numbers outside the ring are refused.", "quantifier": "every limb count, admissible modulus and operand", "why_tests_cant": "All moduli and operands.", "anchors": ["sunscreen_math/src/ring/mod.rs", "sunscreen_math/src/ring/barrett.rs"]}
{"id": "C69", "title": "RLWE public-key encryption decrypts", "statement": "A message encrypted under a generated public key decrypts under the matching secret key to the message plus exactly the noise e*u + e1 - e0*s.", "quantifier": "every degree, key, message and outcome of the random draws", "why_tests_cant": "All draws.", "anchors": ["sunscreen_tfhe/src/ops/encryption/rlwe_encryption.rs"]}
{"id": "C70", "title": "Every declared integer type is usable", "statement": "For every integer type the library declares (UInt8..UInt256, Int8..Int256), the values the type's name promises can be encrypted, processed as bits and decrypted back.", "quantifier": "every declared width and every value of that width", "why_tests_cant": "All widths and values.", "anchors": ["parasol_runtime/src/fluent/uint.rs", "parasol_runtime/src/fluent/int.rs"]}
{"id": "C71", "title": "Constant bits are available for every ciphertext kind", "statement": "Asking a circuit context for the constant one or zero bit of any supported ciphertext kind returns a node that evaluates to that constant, and asking again returns the same node.", "quantifier": "every context reachable by any sequence of requests and every ciphertext kind", "why_tests_cant": "All request histories and kinds.", "anchors": ["parasol_runtime/src/fluent/bit.rs", "parasol_runtime/src/fluent/mod.rs"]}
{"id": "C72", "title": "Handles stay valid while a circuit is built", "statement": "A bit or integer handle obtained from a circuit context keeps denoting the same value whatever further operations are appended to the context.", "quantifier": "every context, handle and subsequent operation", "why_tests_cant": "All building histories.", "anchors": ["parasol_runtime/src/fluent/dynamic_generic_int_graph_nodes.rs", "parasol_runtime/src/fhe_circuit.rs"]}
{"id": "C73", "title": "A fluent program computes its plaintext meaning", "statement": "Any straight-line program over encrypted integers (inputs, constants, conversions, add, sub, comparisons, select, resize, pack, unpack) builds a circuit whose outputs decrypt to what the same program computes on plaintext integers.", "quantifier": "every program, input value and width", "why_tests_cant": "All programs.", "anchors": ["parasol_runtime/src/fluent/dynamic_generic_int_graph_nodes.rs"]}
{"id": "C74", "title": "Safe deserialization accepts exactly well-sized values", "statement": "For every ciphertext, encrypted bit, one time pad and key type, safe deserialization of a byte string succeeds exactly when the bytes start with the serialization of a value whose parts all have the sizes the parameters require, and it then returns that value; in particular every honestly serialized value is read back unchanged and no malformed or truncated string is accepted.", "quantifier": "every byte string, every parameter set, every deserializable type", "why_tests_cant": "Adversarial inputs of any length; the size limit and the validity check have to agree for all parameters.", "anchors": ["parasol_runtime/src/safe_bincode.rs: deserialize", "parasol_runtime/src/crypto/encryption.rs: GetSize", "parasol_runtime/src/crypto/keys.rs: GetSize", "parasol_runtime/src/crypto/recryption.rs: GetSize"]}
{"id": "C75", "title": "Univariate programmable bootstrapping evaluates the function", "statement": "For binary keys and a bootstrap key with bounded noise, programmable_bootstrap_univariate of any LWE ciphertext of a message m with one padding bit and a small enough error succeeds and decrypts, under the extracted key, to f(m) in the top plaintext bits up to an explicit error per key element; if that error is below half a step it decodes to f(m).", "quantifier": "every key, mask, bounded noise, function on plaintext_bits-bit messages, table size, decomposition and ciphertext", "why_tests_cant": "Tests run a handful of random ciphertexts and functions at one parameter set.", "anchors": ["sunscreen_tfhe/src/ops/bootstrapping/programmable_bootstrapping.rs: generate_bootstrap_key, programmable_bootstrap_univariate", "sunscreen_tfhe/src/entities/univariate_lookup_table.rs: trivial_from_fn"]}
{"id": "C76", "title": "Generalized bootstrapping evaluates every packed function", "statement": "With a multi-function lookup table, generalized_programmable_bootstrap with log_v = ceil(log2(number of functions)) yields a ciphertext whose coefficient h, extracted, decrypts to f_h(m) up to an explicit error, for every function h, also when log_chi top bits are dropped.", "quantifier": "every number of functions the table accepts, every message, ciphertext, key and bounded noise", "why_tests_cant": "All numbers of functions, offsets in a slot and noises.", "anchors": ["sunscreen_tfhe/src/ops/bootstrapping/programmable_bootstrapping.rs: generate_lut, generalized_programmable_bootstrap", "sunscreen_tfhe/src/entities/univariate_lookup_table.rs: trivivial_multifunctional"]}
{"id": "C77", "title": "Bivariate programmable bootstrapping evaluates the function of both inputs", "statement": "With carry_bits >= plaintext_bits, programmable_bootstrap_bivariate of ciphertexts of a and b, each with a padding bit above the plaintext and carry bits, decrypts to f(a, b) up to an explicit error and decrypt_lwe_with_carry returns f(a, b); used as in its documentation it computes the documented function.", "quantifier": "every function, pair of messages, key, bounded noise and table size", "why_tests_cant": "All pairs of messages, functions and noises.", "anchors": ["sunscreen_tfhe/src/ops/bootstrapping/programmable_bootstrapping.rs: generate_bivariate_lut, programmable_bootstrap_bivariate", "sunscreen_tfhe/src/high_level.rs: decrypt_lwe_with_carry"]}
{"id": "C78", "title": "GLWE keyswitching preserves the message", "statement": "Switching any GLWE ciphertext with a keyswitch key generated from an old to a new secret key gives a ciphertext that decrypts under the new key to what the input decrypts to under the old key, up to an explicit error.", "quantifier": "every ciphertext, pair of keys, mask, bounded noise, radix and degree that is a power of two", "why_tests_cant": "All ciphertexts, keys, masks and noises.", "anchors": ["sunscreen_tfhe/src/ops/keyswitch/glwe_keyswitch.rs: keyswitch_glwe_to_glwe", "sunscreen_tfhe/src/ops/keyswitch/glwe_keyswitch_key.rs: generate_keyswitch_key_glwe", "sunscreen_tfhe/src/ops/fft_ops.rs: keyswitch_glwe_to_glwe"]}
{"id": "C79", "title": "The homomorphic trace keeps only the constant coefficient", "statement": "With an automorphism key generated for a secret key, the trace of any GLWE ciphertext decrypts to N times the constant coefficient of the decryption of the input, all other coefficients being zero up to an explicit error; key generation succeeds for every secret key.", "quantifier": "every ciphertext, secret key, mask, bounded noise, radix and degree that is a power of two", "why_tests_cant": "All ciphertexts, keys, noises and degrees.", "anchors": ["sunscreen_tfhe/src/ops/automorphisms/mod.rs: trace, generate_automorphism_key"]}
{"id": "C80", "title": "Scheme switching turns a GLev ciphertext of a bit into a GGSW ciphertext of it", "statement": "Switching a GLev encryption of a bit with a scheme switch key generated for the same secret key yields a GGSW ciphertext that selects that bit in a CMUX (explicit error bound), whatever the output buffer contained before; the Fourier version requires a zero output buffer.", "quantifier": "every bit, key, mask, bounded noise, radix, degree that is a power of two and previous content of the output", "why_tests_cant": "All keys, noises, radixes and buffer contents.", "anchors": ["sunscreen_tfhe/src/ops/bootstrapping/scheme_switch.rs: scheme_switch", "sunscreen_tfhe/src/ops/fft_ops.rs: scheme_switch_fft", "sunscreen_tfhe/src/entities/scheme_switch_key.rs"]}
{"id": "C81", "title": "Every instruction has its documented effect on the architectural state", "statement": "Executing an instruction writes the documented result, encrypted exactly when an operand is, to its destination registers (sum and carry, difference and borrow, comparison bit, selected value, shifted or resized value, loaded bytes), or the documented bytes to memory, leaves every other register and byte unchanged, and continues at the next instruction or the branch target.", "quantifier": "every machine state, register numbers, register contents and widths, for each instruction of the table", "why_tests_cant": "All register contents, operand aliasings and widths.", "anchors": ["parasol_cpu/src/proc/assembly.rs: define_op! table", "parasol_cpu/src/proc/fhe_processor.rs: exec_instruction, next_program_counter", "parasol_cpu/src/proc/ops"]}
{"id": "C82", "title": "Gas prices cover homomorphic work", "statement": "An instruction with plaintext operands costs one unit (ret nothing); every instruction that starts homomorphic work costs at least 100000 units and a multiplication 500000, so a run that used less than 100000 units has done no homomorphic work.", "quantifier": "every instruction, operand contents, program and number of steps", "why_tests_cant": "All programs and operand combinations.", "anchors": ["parasol_cpu/src/proc/fhe_processor.rs: compute_gas"]}
{"id": "C83", "title": "Circuit bootstrapping yields a selector for the encrypted bit", "statement": "With keys generated for a secret key, circuit_bootstrap_via_trace_and_scheme_switch applied to any LWE ciphertext that decrypts to a bit (noise below the documented tolerance) succeeds, and the resulting GGSW ciphertext, used as the selector of a CMUX, selects the second ciphertext exactly when the bit is 1; the noise of the result does not depend on the noise of the input.", "quantifier": "all parameter sets, keys, masks, bounded noises, bounded Fourier errors, input ciphertexts, and contents of scratch memory", "why_tests_cant": "depends on randomly drawn masks and noise, and on a chain of a bootstrap, a rounding, traces and a scheme switch whose errors compose", "anchors": ["sunscreen_tfhe/src/ops/bootstrapping/circuit_bootstrapping.rs: circuit_bootstrap_via_trace_and_scheme_switch, mod_switch_trace_and_rotate, hi_noise_lwe_to_lo_noise_glwe, fill_multifunctional_cbs_decomposition_lut"]}
{"id": "C84", "title": "Private functional keyswitching applies the secret map", "statement": "A key generated by generate_private_functional_keyswitch_key for a map that respects addition (and does not amplify errors by more than a factor R) makes private_functional_keyswitch turn LWE ciphertexts of x1..xp into a GLWE ciphertext of the image of (x1..xp), up to an error bounded by the rounding of the decomposition and the noise of the key. In particular the packing map makes coefficient i of the result decode to message i.", "quantifier": "all dimensions, radixes, keys, masks, bounded noises, linear maps, input ciphertexts and previous contents of the output", "why_tests_cant": "depends on randomly drawn masks and noise and on an arbitrary map supplied by the caller; a test uses one map, one parameter set and a zeroed output", "anchors": ["sunscreen_tfhe/src/ops/keyswitch/private_functional_keyswitch.rs: generate_private_functional_keyswitch_key, private_functional_keyswitch", "sunscreen_tfhe/src/ops/ciphertext/glev_ciphertext_ops.rs: decomposed_scalar_glev_mad"]}
{"id": "C85", "title": "Circuit bootstrapping through functional keyswitching yields a selector for the encrypted bit", "statement": "With keys generated for a secret key, circuit_bootstrap_via_pfks applied to any LWE ciphertext that decrypts to a bit (noise below the tolerance) succeeds, and the resulting GGSW ciphertext, used as the selector of a CMUX, selects the second ciphertext exactly when the bit is 1; the noise of the result does not depend on the noise of the input.", "quantifier": "all parameter sets, binary keys, masks, bounded noises, bounded Fourier errors, input ciphertexts and previous contents of the output", "why_tests_cant": "depends on randomly drawn masks and noise, and on a chain of a bootstrap, sample extractions and k+1 keyswitches whose errors compose", "anchors": ["sunscreen_tfhe/src/ops/bootstrapping/circuit_bootstrapping.rs: circuit_bootstrap_via_pfks, extract_and_rotate_lo_noise_glwe, apply_pfks_on_ggsw_components", "sunscreen_tfhe/src/ops/keyswitch/private_functional_keyswitch.rs: generate_circuit_bootstrapping_pfks_keys"]}
{"id": "C86", "title": "Public functional keyswitching applies the caller's map", "statement": "A key generated by generate_public_functional_keyswitch_key makes public_functional_keyswitch turn LWE ciphertexts of x1..xp into a GLWE ciphertext of f(x1..xp), for every map f that respects addition on a zero-initialized polynomial, up to an error bounded by the rounding of the decomposition, the noise of the key and the Fourier error.", "quantifier": "all dimensions, radixes, keys, masks, bounded noises, bounded Fourier errors, linear maps, input ciphertexts, and contents of scratch memory and of the output", "why_tests_cant": "depends on randomly drawn masks and noise, on an arbitrary map supplied by the caller and on what scratch memory happens to hold", "anchors": ["sunscreen_tfhe/src/ops/keyswitch/public_functional_keyswitch.rs: generate_public_functional_keyswitch_key, public_functional_keyswitch"]}
{"id": "C87", "title": "Blind rotation rotates by the encrypted amount", "statement": "After generate_blind_rotation_shift encrypted any rotation below the polynomial degree, blind_rotation of any GLWE ciphertext decrypts to the message polynomial rotated to the left by that amount with the wrapped coefficients negated, up to log2(N) times the error of a CMUX; a rotation of the degree or more is rejected.", "quantifier": "all parameters, rotations, keys, masks, bounded noises and Fourier errors, and input ciphertexts", "why_tests_cant": "depends on randomly drawn masks and noise; a test samples a few rotations in one degree", "anchors": ["sunscreen_tfhe/src/ops/bootstrapping/blind_rotation.rs: generate_blind_rotation_shift, blind_rotation"]}
{"id": "C88", "title": "GLev and GGSW encryption round trip", "statement": "Encrypting a polynomial as a GLev or GGSW ciphertext and decrypting it returns the polynomial whenever the noise is below half the gadget factor; every level of a GLev ciphertext decrypts to the same message; a trivial GLev encryption decrypts to its message under every key; and anything that can be used as a GGSW selector for a bit (for example the output of circuit bootstrapping) decrypts to that bit.", "quantifier": "all keys, masks, bounded noises, messages accepted by encryption, valid radixes, degrees 2^n, key sizes, and all levels", "why_tests_cant": "a test draws one key and a few binary messages with one radix; the claim is about every message width accepted, every radix and every noise up to the bound", "anchors": ["sunscreen_tfhe/src/ops/encryption/glev_encryption.rs: decrypt_glwe_in_glev, decrypt_glev_ciphertext, trivially_encrypt_glev_ciphertext", "sunscreen_tfhe/src/ops/encryption/ggsw_encryption.rs: encrypt_ggsw_ciphertext, decrypt_ggsw_ciphertext, trivially_encrypt_ggsw_ciphertext"]}
{"id": "C89", "title": "Public-key RLev encryption", "statement": "A polynomial encrypted as an RLev ciphertext under a public key decrypts to the polynomial under the secret key of that public key as long as the combined noise is below half the gadget factor, and scheme switching it yields a selector for the encrypted bit; encryption works for every polynomial degree for which the key could be generated.", "quantifier": "all keys, public-key draws, encryption draws and bounded noises, messages, degrees, radixes", "why_tests_cant": "the noise is a product of several random draws and the tests use one degree; the claim ranges over all draws and degrees", "anchors": ["sunscreen_tfhe/src/ops/encryption/glev_encryption.rs: encrypt_rlev_ciphertext", "sunscreen_tfhe/src/high_level.rs: encrypt_binary_msg_rlev", "parasol_runtime/src/crypto/encryption.rs: encrypt_rlev_l1, decrypt_glev_l1"]}
{"id": "C90", "title": "Vector kernels agree on every CPU", "statement": "Polynomial addition, subtraction, multiply-add by a scalar and the frequency-domain multiply-add give the same coefficients (the coefficientwise result modulo 2^64, or the pointwise complex result) whichever vector unit the code dispatches to at run time, and never touch memory outside their operands.", "quantifier": "every CPU feature set, every build profile, every slice length and alignment, every coefficient value", "why_tests_cant": "A test runs on one CPU: the fallback paths are never executed there, and the AVX-512 loop is only tested with a length of 64.", "anchors": ["sunscreen_tfhe/src/math/simd/x86_64/mod.rs: VectorOps for u64, complex_mad", "sunscreen_tfhe/src/math/simd/x86_64/avx512.rs: vector_scalar_mad, complex_mad_avx_512_unchecked", "sunscreen_tfhe/src/math/simd/x86_64/avx2.rs: vector_add_u64, vector_sub_u64", "sunscreen_tfhe/src/math/polynomial.rs: polynomial_add, polynomial_sub, polynomial_small_scalar_mad"]}
{"id": "C91", "title": "The inverse transform reduces onto the torus exactly", "statement": "Every integer produced by the inverse transform is stored as that integer modulo 2^W.", "quantifier": "every width, every integer", "why_tests_cant": "The only wrong values are those congruent to one half with a negative sign, one value in 2^W.", "anchors": ["sunscreen_tfhe/src/math/simd/scalar.rs: vector_mod_pow2_q_f64", "sunscreen_tfhe/src/math/torus.rs: FromF64"]}
{"id": "C92", "title": "The negacyclic transform multiplies polynomials", "statement": "Transforming polynomials, accumulating products pointwise and transforming back gives the sum of products in (Z/2^W)[X]/(X^N+1); transforming and transforming back gives the polynomial.", "quantifier": "every power-of-two degree, every polynomial, any number of products", "why_tests_cant": "The tests transform one small sequence of length 4 or 8; correctness is an algebraic identity over all degrees and coefficients.", "anchors": ["sunscreen_tfhe/src/math/fft/negacyclic/mod.rs: TwistedFft, get_fft", "sunscreen_tfhe/src/entities/polynomial.rs: fft", "sunscreen_tfhe/src/entities/polynomial_fft.rs: ifft, multiply_add", "sunscreen_tfhe/src/math/simd/scalar.rs: complex_twist, complex_untwist"]}
{"id": "C93", "title": "Sub-allocations are disjoint, mapped, aligned and coalesced", "statement": "The blocks returned by Allocation::try_allocate are mapped, aligned as requested and pairwise disjoint, and a request that fits into the pages of the allocation it is given is placed there instead of mapping new pages.", "quantifier": "every history of sub-allocation requests over any number of live Allocation objects, interleaved with any memory operations", "why_tests_cant": "Disjointness is a property of all histories; coalescing is a property of every sequence of sizes and alignments, and the off-by-one and the absolute offset only show at particular positions.", "anchors": ["parasol_cpu/src/memory/mod.rs: Allocation, Allocation::new, Allocation::try_allocate"]}
{"id": "C94", "title": "Circuits evaluated on ciphertexts compute what they compute on messages", "statement": "Generate client and compute keys, encrypt the inputs of FHE circuits, run the circuits on the ciphertexts (extraction, keyswitch, circuit bootstrap, scheme switch, CMUX, GLev CMUX, products, additions, rotations, constants) on the circuit processor with any number of threads and any schedule, and decrypt the output cells. If every node of a circuit has a value on messages and a static analysis bounds its noise (no bootstrap is given more noise than it removes, the outputs are below the decryption limit), then nothing fails and the decrypted outputs are the values computed on the messages. The gate documented as coefficient-wise negation negates every coefficient.", "quantifier": "every parameter set satisfying the stated constraints, every binary key, masks and bounded noise, every circuit, input, floating-point error within a bound, thread count and schedule", "why_tests_cant": "Tests run single gates and a few circuits on random keys; the claim composes all gates over arbitrary circuits, noise draws and schedules.", "anchors": ["parasol_runtime/src/circuit_processor/mod.rs: exec_op", "parasol_runtime/src/crypto/evaluation.rs: Evaluation, KeylessEvaluation", "parasol_runtime/src/crypto/encryption.rs: Encryption", "parasol_runtime/src/crypto/keys.rs: ComputeKeyNonFft::generate"]}
{"id": "C95", "title": "Polynomial arithmetic over a ring", "statement": "The polynomial type behaves as polynomials over its coefficient ring whatever trailing zeros its vectors carry: +, -, *, negation, scalar multiplication and evaluation are the ring operations; the degree is the degree; == decides equality; division by a polynomial whose leading coefficient is one returns the quotient and the remainder, and panics for any other divisor.", "quantifier": "all commutative coefficient rings, all coefficient vectors of any length and padding, all evaluation points", "why_tests_cant": "identities over all polynomials of all degrees; the equality test is used by the tests themselves", "anchors": ["sunscreen_math/src/poly/mod.rs: Polynomial, evaluate, vartime_degree, vartime_div_rem_restricted_rhs, PartialEq, Add, Sub, Mul, Neg"]}
{"id": "C96", "title": "LWE public-key encryption", "statement": "A message encrypted under the public key generated from a secret key is decrypted by that secret key as long as the accumulated noise is below half an encoding step, and the returned randomness explains the ciphertext: it is the selected sum of the key's encryptions of zero, plus the returned noise, plus the encoded message.", "quantifier": "all dimensions, widths, precisions, secret keys (any size of elements), masks, selectors, noises and messages", "why_tests_cant": "random masks and noises; the tests run a few encryptions of one parameter set", "anchors": ["sunscreen_tfhe/src/entities/lwe_public_key.rs: LwePublicKey::generate, LwePublicKeyRef::encrypt", "sunscreen_tfhe/src/high_level.rs: keygen::generate_lwe_pk"]}
{"id": "C97", "title": "Iterators over ciphertexts and keys", "statement": "Iterating over the parts of a ciphertext or key, forwards, backwards or in parallel, visits every part exactly once and in order; mutable references handed out are inside the entity and never overlap, whatever the order of calls or the division of work between threads; the reported number of remaining parts is right; lengths that are not a multiple of the part are refused.", "quantifier": "all slices, strides, sequences of next/next_back calls, and divisions of the work of a parallel iterator", "why_tests_cant": "all interleavings of calls and all splittings by the thread pool; aliasing of mutable references is undefined behaviour that a test need not notice", "anchors": ["sunscreen_tfhe/src/dst.rs: dst_iter!"]}
{"id": "C98", "title": "Layout of ciphertexts and keys", "statement": "Every slice of the length an entity's parameters call for is read by its accessors without panic as a value of the right shape (mask and body, rows, digits, keys), writing that value gives the slice back, different parts never share elements, and writing one part changes no other; the length check accepts exactly these slices.", "quantifier": "all parameters (dimensions, degrees, digit counts), all entities, all contents", "why_tests_cant": "all parameter combinations and all contents of nested strided views", "anchors": ["sunscreen_tfhe/src/dst.rs: OverlaySize", "sunscreen_tfhe/src/entities/: size, a_b, rows, glwe_ciphertexts, keyswitch_keys"]}
{"id": "C99", "title": "Running statistics are exact", "statement": "After any sequence of samples, in any order, the reported mean is the mean of the samples and the reported variance their population variance, which is never negative; a point is inside a polytope exactly when it satisfies all its inequalities, the reported violations are exactly those that fail, and polytopes are convex (arithmetic without rounding).", "quantifier": "every non-empty sample sequence, every permutation of it, every list of half-spaces and every point", "why_tests_cant": "Unbounded sample sequences, all orders, all points.", "anchors": ["sunscreen_math/src/stats.rs: RunningMeanVariance", "sunscreen_math/src/geometry.rs: ConvexPolytope2D"]}
{"id": "C100", "title": "Programs over encrypted integers compute the right integers end to end", "statement": "Take any secret keys, any compute key generated from them, and any straight-line program of fluent calls (encrypted inputs, constants, conversions, add, sub, comparisons, select, resize, pack, unpack) whose results are collected into fresh outputs. Building the circuit never panics and the circuit is acyclic and accepted by the executor; if the client encrypts the inputs and the noise analysis of the circuit stays within bounds, then under every schedule of the parallel executor the completion callback fires once without error, and decrypting the output cells yields exactly the integers (modulo the declared widths), bits and packed integers that the program computes on plaintext.", "quantifier": "all parameters meeting the stated conditions, all secret keys, all draws of the key generation and encryptions within noise bounds, all floating-point errors within the bound, all accepted programs of any length, all choices of outputs, all input values, all topological orders, numbers of threads and tokens, and schedules", "why_tests_cant": "the composition ranges over unboundedly many programs, key draws, noises and thread schedules; tests sample a handful of each and cannot show that the layers' contracts fit together", "anchors": ["parasol_runtime/src/fluent/dynamic_generic_int_graph_nodes.rs: collect_outputs, resize, add, sub, cmp", "parasol_runtime/src/fluent/bit.rs: collect_output", "parasol_runtime/src/circuit_processor/mod.rs: spawn_graph, run_graph_blocking", "parasol_runtime/src/crypto/evaluation.rs"]}
{"id": "C101", "title": "Graph traversal visits every node once, dependencies first", "statement": "Traversing a circuit graph calls the callback exactly once on every node, after all of the node's predecessors (successors, when going backwards), and stops at the callback's first error; parallel edges and removed nodes make no difference. Nodes on a cycle, or reachable from one, are silently skipped.", "quantifier": "all graphs, all callbacks and callback states, both directions", "why_tests_cant": "Quantifies over all graphs (including multi-edges, holes and cycles) and all stateful callbacks.", "anchors": ["mux_circuits/src/graph_ops.rs: traverse, forward_traverse"]}
{"id": "C102", "title": "The circuit evaluator returns what the circuit computes", "statement": "test_mux_circuit on a multiplexer circuit and one bit per input returns the value of every output, in the order of the output numbers; for a circuit built from decision diagrams, the value of each diagram. Any other number of inputs is refused.", "quantifier": "all circuits, all inputs", "why_tests_cant": "All circuit shapes and inputs; this evaluator is the oracle of the crate's own tests, so those tests cannot check it.", "anchors": ["mux_circuits/src/lib.rs: test_mux_circuit, MuxCircuit::get_mux_inputs, MuxCircuit::metrics"]}
{"id": "C103", "title": "A computer can be used again: earlier programs, even failed ones, leave no trace in later ones", "statement": "After any sequence of run_program calls on one FheComputer, each with its own program, memory, arguments and gas limit, some of which may have returned an error, the next run_program call behaves like the same call on a new computer: every execution of it corresponds to an execution on a new computer with the same result, error, memory, registers and gas, and every execution possible on a new computer is possible on the used one.", "quantifier": "all histories of earlier runs and their schedules, all programs, memories, initial registers and gas limits, all schedules of the run", "why_tests_cant": "The processor keeps its channel, in-flight counter, instruction counter and scoreboard between runs; whether something left over can matter depends on the history and on the schedule of background work in both runs.", "anchors": ["parasol_cpu/src/proc/fhe_processor.rs: reset", "parasol_cpu/src/proc/fhe_processor.rs: run_program_with_options", "parasol_cpu/src/proc/fhe_processor.rs: wait"]}
{"id": "C104", "title": "pack_int and unpack_int on ciphertexts", "statement": "FheComputer::pack_int on an encrypted integer of 1 to degree bits returns one ciphertext that holds the polynomial with these bits as coefficients followed by zeros, with noise at most the sum of the input noises; FheComputer::unpack_int returns one ciphertext per bit that holds the corresponding coefficient, with a noise independent of the input; unpacking a packed integer gives back the same bits in the same order. Both runs succeed on any number of workers under any schedule. Packing no bits or more bits than the degree panics.", "quantifier": "every width from 1 to the degree, every integer, every secret key, key-generation randomness, encryption randomness and floating-point error within the bounds, every number of threads and flow-control tokens, every schedule", "why_tests_cant": "a test packs a few widths and values with one key and one schedule; the guarantee is over all of them, with a closed-form noise bound", "anchors": ["parasol_cpu/src/proc/mod.rs: FheComputer::pack_int, pack_int_dyn, unpack_int, unpack_int_dyn, run_graph_blocking", "parasol_runtime/src/fluent/dynamic_generic_int_graph_nodes.rs: pack", "parasol_runtime/src/fluent/packed_dynamic_generic_int_graph_node.rs: unpack, collect_output"]}
{"id": "C105", "title": "Programs of the processor on ciphertexts decrypt to the results of the program in the clear", "statement": "Client and server generate keys, some registers and memory bytes of the processor hold encryptions of bits, and a program runs. If the noise budget suffices along the program (which can be checked knowing only plaintexts and widths), every circuit the instructions spawn is built and runs successfully whatever the number of workers and the schedule, the program returns after the same number of instructions as in the clear, and every register and every byte of memory then decrypts to its value after the run in the clear. An instruction that fails on ciphertexts fails with the same error in the clear.", "quantifier": "all parameters, keys and randomness within the noise bounds, all programs, initial states, encrypted bits and ciphertexts of them, all numbers of instructions, all schedules of every circuit", "why_tests_cant": "tests run a handful of programs on a few inputs with one key and one schedule; noise growth along arbitrary programs and the aliasing of shared ciphertext cells cannot be sampled", "anchors": ["parasol_cpu/src/proc/ops/*.rs", "parasol_cpu/src/proc/fhe_processor.rs::FheProcessor::exec_instruction", "parasol_runtime/src/fhe_circuit.rs::insert_mux_circuit_and_connect_inputs", "parasol_runtime/src/circuit_processor.rs"]}
{"id": "C106", "title": "The out-of-order processor computes on ciphertexts what the program computes in the clear, under every schedule", "statement": "Generate a compute key. Let a program run on registers and memory that hold ciphertexts (of bits, with bounded noise) and plaintexts. If the noise analysis of the program returns (no bootstrap may fail) and no address or branch condition is pending when the processor needs it, then under every schedule of the out-of-order processor - instructions on ciphertexts run in the background and overlap - the run does not fault, its length is bounded, it can always be continued until the program has returned, and then every register and every byte of memory holds encryptions of exactly the bits that executing the same instructions one at a time in the clear yields; the owner of the secret key decrypts them to these bits as long as the noise is below a quarter of the torus. Programs without exclusive or, cmux and shifts satisfy the noise condition however long they run. The results of an instruction are those its circuit leaves in the output cells under every schedule of the worker threads, whatever other circuits run.", "quantifier": "all parameters, keys and draws within the noise bounds, all programs, inputs, ciphertexts, schedules of the processor and of the worker threads, all lengths of runs", "why_tests_cant": "a test sees one schedule, one key and one set of ciphertexts; the number of interleavings and of noise values is unbounded", "anchors": ["parasol_cpu/src/proc/fhe_processor.rs:FheProcessor::run_program", "parasol_cpu/src/proc/ops", "parasol_runtime/src/circuit_processor/mod.rs:CircuitProcessor::spawn_graph", "parasol_cpu/src/tomasulo"]}
{"id": "C107", "title": "Programs kept in the memory they compute on", "statement": "The processor decodes each instruction from the memory it computes on, at the moment it fetches it, while earlier instructions (including stores) may still be pending. For every program in memory that returns when its instructions are read and executed one at a time, that does not overwrite the bytes of the instructions it executes, and whose loads, stores and branches are steady (C38), every schedule of the processor executes without a fault exactly these instructions, finishes in a bounded number of steps, and leaves the registers and the memory of program order. Where memory holds the encoding of a legal instruction at an aligned address, that instruction is fetched. (For self-modifying code this fails: a stale instruction may be fetched.)", "quantifier": "all memory contents and programs in them, all initial registers, all run lengths, all schedules of fetching, dispatch, background completion, notification and retirement", "why_tests_cant": "A stale fetch needs a particular interleaving of a pending store and the fetch; the claim is over all programs and all schedules.", "anchors": ["parasol_cpu/src/proc/fhe_processor.rs: run_program_with_options", "parasol_cpu/src/memory/mod.rs: try_load_plaintext_dword"]}
{"id": "C108", "title": "A call of a program in memory, end to end on ciphertexts", "statement": "Generate keys; a client encrypts arguments of any types (encrypted and plaintext integers, arrays of them) and the program is in memory. If in the clear (with the bits in place of their encryptions) the call frame can be set up, the instructions read from memory one after the other return and the return value v can be read, and the program keeps its code and is steady (C38), then on ciphertexts: the frame is set up with the return value at the same address; under every schedule of the processor there is no fault, the run has a bounded length and can be continued until run_program returns; and the value returned decrypts to v. This holds for programs of any length made of instructions other than exclusive or, cmux and shifts (whose result can then be passed to any number of further calls) when the parameters allow it (a bound on the noise of inputs that the circuits themselves maintain), and for all instructions when the noise analysis of the program succeeds with a return value of noise below a quarter of the torus.", "quantifier": "all parameter sets, keys and noise within the stated bounds, all memory contents, programs and run lengths, all argument lists and argument/return types, all schedules", "why_tests_cant": "Tests run a few programs on a few inputs under the schedules that happen to arise, with one key; the claim covers all programs, values, noise and schedules.", "anchors": ["parasol_cpu/src/proc/fhe_processor.rs: FheProcessor::run_program, run_program_with_options, set_up_function_call, try_capture_return_value", "parasol_cpu/src/proc/args.rs: ArgsBuilder, ToArg, CallData"]}
{"id": "C109", "title": "Encrypted integers as clients make and open them", "statement": "For every width, signedness and integer that fits it, and all key material and noise within bounds: an integer encrypted under the public key in packed form, or bit by bit (public key, or secret key in any of the five ciphertext forms), is decrypted with the secret key to the same integer; a packed integer that does not fit (or has more bits than the polynomial has coefficients) is refused rather than encrypted; a trivial packed encryption decrypts to its integer; and a packed integer recrypted under a one-time pad is opened by the holder of the pad, and only needs the pad, to the same integer.", "quantifier": "all widths up to 128, signs, values, keys, public keys, random draws within the noise bounds, pads", "why_tests_cant": "The round trip must hold for every value, width, key and noise draw; tests sample a few at one parameter set.", "anchors": ["parasol_runtime/src/fluent/generic_int.rs: PackedDynamicGenericInt::{encrypt,decrypt,trivial_encrypt,recrypt}", "parasol_runtime/src/fluent/dynamic_generic_int.rs: DynamicGenericInt::{encrypt,encrypt_secret,decrypt}", "parasol_runtime/src/fluent/recrypted_int.rs: EncryptedRecryptedGenricInt::decrypt, RecryptedGenericInt::decrypt", "parasol_runtime/src/crypto/recryption.rs"]}
{"id": "C110", "title": "From a client's integers to its integer result", "statement": "A client generates keys, encrypts integers of any widths under the public key and passes them to a program in memory which returns an encrypted integer. If the program on the bits of the integers, run in the clear one instruction after the other, returns the bits r (and keeps its code, is steady, and its noise analysis succeeds; always when it uses no exclusive or, cmux, shifts), then under every schedule the encrypted run has no fault and ends within a bound, and the client decrypts the result, unsigned or signed, to the integer whose bits are r.", "quantifier": "all keys and draws within noise bounds, integers, widths, programs, schedules of the processor", "why_tests_cant": "Ranges over programs, inputs, keys, noise and all interleavings of the out-of-order processor.", "anchors": ["parasol_cpu/src/proc/fhe_processor.rs: run_program", "parasol_cpu/src/proc/args.rs", "parasol_runtime/src/fluent/dynamic_generic_int.rs: DynamicGenericInt::{encrypt,decrypt}"]}
{"id": "C111", "title": "The compact protocol: packed integers in, packed result out", "statement": "A client generates keys and encrypts integers in packed form (one ciphertext each). A server unpacks each with unpack_int, passes the unpacked integers to a program in memory, and packs the returned integer with pack_int. If the program on the bits of the integers, run in the clear one instruction after the other, returns the bits r (keeps its code, is steady, uses no exclusive or, cmux, shifts), then none of the runs fails under any schedule of the circuit workers or of the processor, and whatever the schedules were, the client opens the packed result as the integer with the bits r.", "quantifier": "all keys and draws within noise bounds, integers, widths, programs of any length, orders of the circuits, numbers of workers and tokens, schedules of the workers and of the processor", "why_tests_cant": "Ranges over programs, inputs, keys, noise and all interleavings of three concurrent runs.", "anchors": ["parasol_cpu/src/proc/mod.rs: pack_int, unpack_int", "parasol_cpu/src/proc/fhe_processor.rs: run_program", "parasol_runtime/src/fluent/generic_int.rs: PackedDynamicGenericInt::{encrypt,decrypt}"]}
{"id": "C112", "title": "Rounded division and torus distance are exact", "statement": "`div_rounded` returns the integer nearest to the quotient without panicking; `normalized_torus_distance(a, b)` is the shortest signed distance, with `b = a + distance (mod 1)`.", "quantifier": "all widths, all dividends and divisors of the unsigned and signed types; all pairs of torus elements of any width", "why_tests_cant": "the unit test draws 64-bit divisors at random and compares after rounding to f64, so neither odd small divisors, negative operands nor the boundary of the type are reached", "anchors": ["sunscreen_tfhe/src/math/basic.rs: RoundedDiv::div_rounded", "sunscreen_tfhe/src/math/torus.rs: normalized_torus_distance, Torus::normalized_torus"]}
{"id": "C113", "title": "Sampling is unbiased and generated keys are valid", "statement": "`uniform_torus` and `generate_uniform` give every value equally often, `binary` and `generate_binary` give every binary value or key equally often and nothing else, a Gaussian sample becomes the torus element it denotes, and the keys of `SecretKey::generate` satisfy, whatever the generator returns, everything the correctness theorems assume of secret keys.", "quantifier": "all outcomes of the random generator, all dimensions, both torus widths", "why_tests_cant": "a statistical test of samples cannot establish exact uniformity over 2^64 outcomes per draw or validity for every outcome", "anchors": ["sunscreen_tfhe/src/rand.rs: uniform_torus, binary, normal_torus", "sunscreen_tfhe/src/math/torus.rs: FromU64", "sunscreen_tfhe/src/entities/lwe_secret_key.rs: generate_binary, generate_uniform", "sunscreen_tfhe/src/entities/glwe_secret_key.rs: generate_binary, generate_uniform", "parasol_runtime/src/crypto/keys.rs: SecretKey::generate"]}
{"id": "C114", "title": "Arithmetic on keys and ciphertexts: additive key shares, homomorphic operators", "statement": "A ciphertext decrypts under a sum of key shares to the body plus the shares' contributions, for any number of shares (threshold decryption); a share of a key under a uniform mask is uniform; the operators `+`, `-`, unary `-` on LWE and GLWE ciphertexts act on the messages. Operands of different sizes are refused.", "quantifier": "all keys, shares, ciphertexts and dimensions (GLWE degree any power of two), any number of shares", "why_tests_cant": "tests add two keys or ciphertexts of one parameter set", "anchors": ["sunscreen_tfhe/src/macros.rs: impl_binary_op, impl_unary_op", "sunscreen_tfhe/src/entities/lwe_secret_key.rs: generate_uniform, decrypt_without_decode", "sunscreen_tfhe/src/entities/glwe_secret_key.rs", "sunscreen_tfhe/src/entities/lwe_ciphertext.rs", "sunscreen_tfhe/src/entities/glwe_ciphertext.rs"]}
{"id": "C115", "title": "Security estimates: accepted inputs, monotonicity, consistency", "statement": "`lwe_security_level_to_std` accepts 368 to 2048 dimensions and 78 to 130 bits (minus the documented corner above 1472 dimensions); the standard deviation it returns grows with the level and falls with the dimension; `lwe_std_to_security_level` accepts every standard deviation it returns.", "quantifier": "all dimensions, all levels (every rational, not only integers)", "why_tests_cant": "the test samples integer levels and skips every input one of the two functions refuses", "anchors": ["sunscreen_math/src/security.rs: lwe_security_level_to_std, lwe_std_to_security_level, evaluate_polynomial_2d, evaluate_polynomial", "sunscreen_math/src/geometry.rs: ConvexPolytope2D::inside"]}
{"id": "C116", "title": "Graph transforms do what they say", "statement": "Applying a list of graph transforms (add or remove nodes and edges, with deferred indices for nodes not yet added) to a graph yields exactly the graph the transforms describe in order: every deferred index designates the node its AddNode created even though vacated slots are reused, untouched nodes keep their index and weight, edges keep their order, parallel edges are removed newest first, and the returned list is the added nodes in order. A deferred index that is not an earlier AddNode panics on every graph. The index push returns designates the pushed transform.", "quantifier": "every well-formed graph with any vacancies, every list of transforms", "why_tests_cant": "Deferred resolution and slot reuse interact over all histories of removals and additions.", "anchors": ["mux_circuits/src/opt.rs: Transform", "mux_circuits/src/opt.rs: GraphTransforms::apply", "mux_circuits/src/opt.rs: GraphTransforms::push", "mux_circuits/src/opt.rs: materialize_index"]}
{"id": "C117", "title": "Debug handlers see program order values, each call once", "statement": "A Dbg instruction with an installed handler calls that handler exactly once, with the instruction number, program counter and register contents the instruction has when the program is executed one instruction at a time, whatever the out-of-order schedule; a Dbg without a handler calls nothing; handlers do not change the run; and calls are made in program order.", "quantifier": "every program (steady as in C38), every number of handlers, every schedule", "why_tests_cant": "The time of a call depends on background computations; tests see a few schedules.", "anchors": ["parasol_cpu/src/proc/ops/dbg.rs: dbg", "parasol_cpu/src/proc/fhe_processor.rs: debug_handler", "parasol_cpu/src/proc/fhe_processor.rs: exec_instruction"]}
{"id": "C118", "title": "A one-time pad hides the recrypted message perfectly", "statement": "When an encrypted integer is recrypted with a freshly generated one-time pad, the party that removes the outer encryption (the threshold committee) sees a sequence of bits that is uniformly distributed over all sequences, the same for every integer; nothing but the bit length leaks. The holder of the secret pad recovers the integer for every outcome of the generator. A pad used for two messages reveals the exclusive-or of the messages.", "quantifier": "every integer that fits, every bit length below the ring degree, every outcome of the generator, all keys and admissible encryption noise", "why_tests_cant": "secrecy is a statement about the distribution over all 2^(64 N) outcomes of the generator; a test draws one pad and checks the round trip", "anchors": ["parasol_runtime/src/crypto/recryption.rs: generate_one_time_pad, recrypt_one_time_pad, decrypt_one_time_pad", "parasol_runtime/src/fluent/generic_int.rs: PackedDynamicGenericInt::recrypt"]}
{"id": "C119", "title": "Any number of encrypted calls, results passed on", "statement": "A client may make any number of run_program calls, one after the other, on the same Memory, passing results of earlier calls (still encrypted) as arguments of later ones, and later programs may read what earlier ones left in memory. Whenever the same calls succeed on the plaintexts (stack large enough included: the stack pointer is not restored between calls), every encrypted call sets up its frame at the same address, runs without a fault and to the end under every schedule, and all results decrypt to the results in the clear; ciphertext noise stays below one fixed bound throughout, whatever the number of calls. After a call, Memory holds exactly what the run left and the same addresses are mapped.", "quantifier": "all key-generation randomness within the noise bounds, all parameter sets whose steady noise is below the bootstrapping limit, all lists of calls with arguments of any types and any data flow between them, all programs whose clear run is steady and avoids xor, cmux and shifts, every schedule of every call", "why_tests_cant": "The number of calls, the data flow between them and the schedules are unbounded; noise growth over many calls cannot be measured by a finite test.", "anchors": ["parasol_cpu/src/proc/fhe_processor.rs: run_program_with_options, reset, set_up_function_call, try_capture_return_value", "parasol_cpu/src/memory/mod.rs: Memory, stack_ptr, try_push_arg_onto_stack"]}
{"id": "C120", "title": "Integers of dynamic width behave as those of static width", "statement": "A DynamicUInt or DynamicInt whose number of bits is a power of two and at least 8 is passed to a program, written to memory and read back exactly as the UInt<N>/Int<N> of that width; any other width is refused (a panic) before memory is changed. What try_write_type_dyn wrote, try_load_type_dyn of as many bytes reads back after any later operations elsewhere. A successful read returns exactly the ciphertexts of the requested bytes in order, and never a value made of plaintext bytes.", "quantifier": "all widths, ciphertexts, addresses, memories, alignments and byte counts, and all histories of other memory operations in between", "why_tests_cant": "Widths, addresses and the operations in between are unbounded.", "anchors": ["parasol_cpu/src/proc/args.rs: DynamicToArg, arg_dyn", "parasol_cpu/src/memory/mod.rs: try_write_type_dyn, try_load_type_dyn"]}
{"id": "C121", "title": "The gas a run reports", "statement": "The amount of gas run_program_with_options returns with the result is the sum of the charges of the instructions that ran. Actually the sum is kept in 32 bits: it is right below 2^32; beyond that a build without overflow checks reports it modulo 2^32 and a build with them panics in the middle of the call.", "quantifier": "every program, gas limit, schedule, number of instructions, and both build profiles", "why_tests_cant": "A run has to charge more than 2^32 units (8590 encrypted multiplications, or some billions of plaintext instructions) before the counter goes wrong, and the sum has to be right for every program and schedule below that.", "anchors": ["parasol_cpu/src/proc/fhe_processor.rs: run_program_with_options, compute_gas"]}
{"id": "C122", "title": "Trivial encryptions of integers and bits", "statement": "For every width, signedness and integer that fits it, DynamicGenericInt::trivial (and GenericInt::trivial, Bit::trivial_encryption) succeeds for each of the five ciphertext types. For the LWE, GLWE and GLev types the ciphertexts depend on no key, carry no noise, and decrypt to the integer under every secret key. For GGSW they are the two constants made when the Evaluation was created; these hold 0 and 1 with the noise of a bootstrap, so the integer decrypts under the secret key of the compute key. Integers that do not fit are refused. A constant node of a circuit computes exactly the trivial encryption of its bit.", "quantifier": "all widths, signednesses, integers, ciphertext types, secret keys, key-generation randomness within the noise bounds, floating-point errors within bounds", "why_tests_cant": "ranges over all integers up to 128 bits, every key and all random draws", "anchors": ["parasol_runtime/src/fluent/dynamic_generic_int.rs: DynamicGenericInt::trivial", "parasol_runtime/src/fluent/mod.rs: CiphertextOps::trivial_encryption", "parasol_runtime/src/crypto/evaluation.rs: Evaluation::new", "parasol_runtime/src/crypto/encryption.rs: trivial_lwe_l1_one", "parasol_runtime/src/fluent/bit.rs: Bit"]}
{"id": "C123", "title": "Sessions of circuits on the same ciphertexts", "statement": "A user may run circuits any number of times on the same ciphertexts: each call spawns several circuits and waits for them, on any number of threads; between calls the client stores new encryptions, trivial encryptions or copies of ciphertexts; circuits read what earlier circuits wrote. If every circuit evaluates on the messages and passes the static noise analysis, with messages and noise bounds carried from call to call, then no callback ever reports an error, every ciphertext holds its message in the clear up to the bound of the analysis, and it decrypts to that message when the bound is below the limit. Every such session can be carried to its end. In particular a bit can be bootstrapped and negated any number of times.", "quantifier": "all sessions (any number of calls, circuits, data flow between them), all keys and randomness within the noise bounds, all floating-point errors within bounds, all numbers of threads and tokens and all schedules of every call", "why_tests_cant": "the number of calls, the data flow and the schedules are unbounded; noise accumulates over the session", "anchors": ["parasol_runtime/src/circuit_processor/mod.rs: CircuitProcessor::spawn_graph, run_graph_blocking", "parasol_runtime/src/circuit_processor/completion_handler.rs: CompletionHandler::new_notify", "parasol_runtime/src/crypto/encryption.rs: Encryption", "parasol_runtime/src/fluent/mod.rs: CiphertextOps"]}
{"id": "C124", "title": "Results of fluent programs feed the next program without decryption", "statement": "If an accepted fluent program over encrypted integers is run on ciphertexts known to hold some integers (fresh encryptions or results of earlier programs in the same session), and the noise analysis gives a bound at every node, then no circuit reports an error, the output ciphertexts hold the results of the plaintext program and may be read by the next program, all other ciphertexts are unchanged, and when the bounds are below the limit of decryption the client decrypts the results of the plaintext computation.", "quantifier": "all accepted programs, collected results, inputs, earlier sessions of circuits and encryptions, secret keys, key masks and noise within the levels, floating-point errors within the bound, numbers of threads and flow-control tokens, and schedules", "why_tests_cant": "tests run one circuit on fresh encryptions; the correctness of chains of programs on the results of earlier ones depends on the noise left by every history of calls and holds for all schedules only by proof", "anchors": ["parasol_runtime/src/fluent/mod.rs: FheCircuitCtx", "parasol_runtime/src/circuit_processor/mod.rs: run_graph_blocking, spawn_graph", "parasol_runtime/src/fluent/dynamic_generic_int_graph_nodes.rs: collect_outputs"]}
