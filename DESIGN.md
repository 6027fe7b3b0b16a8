# Formal model of Sunscreen-tech/spf in Lean 4 — design

## Layout

* `properties.jsonl` – English properties C01… (statement, quantifier, anchors).
* `lean/Verif/Model/*.lean` – executable model, one file per area of the code; every definition cites
  the file and lines in `/repo` it models and says where it simplifies.
* `lean/Verif/Spec/*.lean` – small specifications (value of a bit list, meaning of a circuit, sequential semantics,
  negacyclic ring, nearness of torus elements, …) used in theorem statements, written without reference to the model's helpers.
* `lean/Verif/Proof/*.lean` – helper lemmas.
* `lean/Verif/Props/*.lean` – the property theorems, each beside an `example` showing that a concrete,
  non-trivial case meets its hypotheses.  Theorem names start with the property id (`C01_…`).
* `MANIFEST.json` – property → theorems (generated by `gen_manifest.py` from `manifest_table.py`).
* `seeded/LOG.jsonl` – mutation log.  `DESIGN.md` is `design_head.md` plus a table generated by `gen_design.py`.

Conventions: a Rust panic (assert, overflow under debug assertions, index out of range, `unwrap` of `None`)
is an explicit error value (`none` / an error constructor), never a default value.  `&mut` becomes a returned value.
Threads become nondeterministic step relations: a theorem about "every schedule" quantifies over every
sequence of enabled atomic steps.

When the unchanged code violates a property, the property keeps its full statement; the negation is proved
with a concrete witness (name contains `_violated`), and what does hold is proved under the suffix `_partial`.

## How each area is modelled and proved

| Ids | Model | Proof |
|----|-------|-------|
| C01–C07 | circuit generators as functions building Boolean functions (meaning of a decision diagram = Boolean function of the inputs; contract `BddLibOk` of the BDD library) | induction on width against the `Nat` value of a bit list |
| C08 | barrel shifter layers | induction on layers; index arithmetic |
| C09, C10 | array multiplier, grade-school reduction, `mul_impl` recursion | induction, linear arithmetic |
| C11–C14 | mux graphs and FHE circuits as node/edge arrays, evaluated in any topological order | simulation, induction on node index |
| C15 | conversion recursion over the 5 ciphertext kinds | case analysis lifted over every circuit |
| C16–C19 | task scheduler as nondeterministic transition system (submit / dispatch / execute / notify / retire) | inductive invariants, refinement to sequential evaluation, variant for progress |
| C20–C24, C70–C74 | fluent integers: bit lists, client-side plaintext packing, circuit-building API with handles, programs as lists of API calls, bincode deserialisation | induction over programs; witnesses for the violations |
| C25, C26 | cell / lock state machine over any interleaving | inductive invariant |
| C27, C28 | instruction bit fields | arithmetic per field, lifted to every instruction and word |
| C29–C34, C64–C66 | page-table memory, allocator, typed access, call frame layout, ELF segments | invariants by induction over operation lists |
| C35–C37 | plaintext ALU with explicit overflow panics; ciphertext ALU as composition of the C01–C09 circuits | arithmetic against `Nat`/`Int` specs |
| C38–C43 | Tomasulo machine as nondeterministic transition system with rename tables, reservation of pending operands, gas | refinement to in-order semantics; witnesses for violations |
| C44–C56, C75–C77 | torus = `BitVec W`; polynomials = coefficient lists, meaning in Mathlib's `AdjoinRoot (X^N+1)`; LWE/GLWE/GLev/GGSW ciphertexts as structured lists; noise as bounded integers | ring algebra, a calculus of small elements, rounding arithmetic |
| C57, C58, C62, C67–C69 | exact integer models of the field code, NTT roots, RLWE | arithmetic, `ZMod` |
| C59, C60 | iterators as state machines | induction |
| C61 | scratch stack as state machine | invariant |
| C78–C80, C83–C89 | GLWE key switching, trace, scheme switch, circuit bootstrap, functional key switches, blind rotation, GLev/GGSW decryption on the same lists | the phase/noise calculus of C56, induction over rows, levels and key bits |
| C81, C82 | instruction execution and gas, per instruction | case analysis over the instruction set against `Seq.step` |
| C90 | vector kernels register by register (loads, stores, shuffles, lane arithmetic) over slices with an address; dispatch over CPU features and build profile | loop invariants over 16-word blocks |
| C91, C92 | inverse-transform reduction over `Int`; twisted DFT over `ℂ` in exact arithmetic | evaluation homomorphism of `Z[X]/(X^N+1)`, orthogonality of roots of unity |
| C93 | sub-allocator over the page-table model | invariant over histories of live allocations |
| C94 | ciphertext-level interpretation of operators, key generation and client (Model/CtExec) | per-operator noise lemmas (from C49-C56, C80, C83), induction over evaluation, generic scheduler theorem (Proof/SchedGen) |
| C95 | coefficient lists over any commutative ring, loops as written (Model/RingPoly) | Mathlib `Polynomial`: coefficients, `divByMonic` uniqueness; loop invariants |
| C96 | LWE public keys (Model/LwePk) | phase is linear; sums of bounded noises |
| C97, C98 | strided iterators as index state machines, parallel splitting as trees, sizes and accessors of entities (Model/Dst, Model/Layout) | refinement to double-ended queues; flat slices and structured values are inverse to each other |
| C99 | running mean/variance and polytopes over rationals (Model/Stats) | invariant over the sample list; field arithmetic |
| C100 | fluent programs, output collection, parallel execution on ciphertexts (Model/FluentProg collectAll, Model/FluentMulProg execM, with Model/CtExec, Model/Sched) | composition of C73, C94 and C16–C19; invariant that every node of a built circuit has a value |
| C101 | graph traversal with an arbitrary stateful callback (Model/Traverse) | loop invariant over ready/visited/stack, order independent of the callback |
| C102 | the plaintext circuit evaluator (Model/Traverse) | on top of C101; invariant "nodes done hold their value" against Spec/MuxSem; violations for removed nodes and output order |
| C103 | the state a second run finds: `reset`, the end of `run_program_with_options` (`fhe_processor.rs`) | simulation: `step` commutes with shifting the instruction numbers; a finished run leaves only retired instructions (induction over the history) |
| C104 | `FheComputer::pack_int`, `unpack_int` (parasol_cpu/src/proc/mod.rs:318-383): the circuits built from the fluent operations, run by the circuit processor on ciphertexts | noise analysis of the circuits as they are built (sum over the addition tree; keyswitch, bootstrap and multiplication by one for unpacking), composed with the scheduler and ciphertext theorems of C94; the round trip chains two runs |
| C105 | registers and memory as references to ciphertext cells, the instructions as jobs on cells, the circuits of the jobs, multiplication through the recursive multiplier and pruning, the run of a program one instruction at a time (parasol_cpu/src/proc/ops/*.rs, fhe_processor.rs, parasol_runtime/src/fhe_circuit.rs:424-483) | simulation of the machine on bits by the machine on cells; each job is built, computes its bits and has the noise of its analysis; induction on the number of instructions |
| C106 | the processor whose registers and memory hold ciphertexts, as an instance of the out-of-order machine; results of an instruction by evaluating its circuit on ciphertexts (parasol_cpu/src/proc/fhe_processor.rs, ops/*.rs, parasol_runtime/src/circuit_processor/mod.rs:255-640) | the machine theorems of C38/C39 for this instance; simulation between the instances on bits, noise, ciphertexts and pairs of bit and ciphertext; evaluation of a circuit agrees with every schedule (C16) |
| C107 | `Machine.runM`: every fetch decodes the eight bytes at the program counter from the memory of that moment (fhe_processor.rs:659-690, memory/mod.rs:554-594) | Every byte of memory is, at any time, the byte of program order after some prefix of the instructions (`mem_prefix`); code that no prefix changes is therefore always read unchanged, so the run is a run of the fixed program and C38/C39 apply; a concrete schedule refutes the claim for self-modifying code |
| C108 | `Ty`/`setUpCall`/`returnValue` (args.rs, fhe_processor.rs:543-631) around the processor of C106 whose program is in memory (C107) | The call frame, the return value and a run are parametric in the type of encrypted bits: relational lemmas carry "encrypts with noise at most B" (or the noise analysis) through set-up, every instruction and the read of the return value; C38, C39 and C107 cover schedules |
| C109 | client-side integers (fluent/generic_int.rs, dynamic_generic_int.rs, recrypted_int.rs, crypto/recryption.rs) in Model/EncInt | phase bounds of C69 (public key), the bit layout of packed integers, then decoding below the decryption limit |
| C110 | composition of Model/EncInt with Model/RunProgram | C109 gives the held arguments, C108 the run, intDecrypt_ok opens the result |
| C111 | composition: packed client integers (Model/EncInt), unpack_int/pack_int circuits under the scheduler (Model/Computer), run_program (Model/RunProgram) | C109 gives held polynomials, C104 held bits, C108 held results, C104 again, then decoding |
| C112 | `div_rounded` on unsigned and signed types, torus distance (math/basic.rs, math/torus.rs) | exact integer arithmetic; minimality over all offsets mod 1 |
| C113 | `from_u64`, `uniform_torus`, `binary`, `normal_torus`, key generation (rand.rs, entities/*_secret_key.rs, crypto/keys.rs) | counting generator outcomes per result; products over key elements |
| C114 | operators of keys and ciphertexts on flat slices (macros.rs, entities) | linearity of the dot product in key and mask, in the negacyclic quotient ring for GLWE |
| C115 | security estimates with their polytopes and coefficient tables, exact rationals (sunscreen_math/src/security.rs) | Bernstein expansions of difference quotients with positive coefficients over the box of dimensions and levels |
| C116 | transform lists, deferred indices, push and apply on a StableGraph with free list (mux_circuits/src/opt.rs) | refinement invariant against a named-graph semantics whose names are never reused |
| C117 | dbg instruction and handler calls along schedules of the out-of-order processor (parasol_cpu/src/proc/ops/dbg.rs, fhe_processor.rs) | invariant relating the order of execution to program order on top of C38; witness schedule for the order |
| C118 | one-time pads: generation (Model/OneTimePad), recryption and decryption (Model/Rlwe, Model/EncInt); what the committee sees (Spec/OneTimePad) | counting of generator outcomes (C113) composed with the end-to-end recryption theorem (C109) |
| C119 | calls in a row on one memory (Model/RunProgram `Mem.after`, Spec/Calls, Spec/CallsNoise) | the simulation behind C108 also relates the whole memory after a run, with noise at most B (`C119_calls_noise`: with the bound of the noise analysis of that call); induction over the list of calls |
| C120 | integers of dynamic width (Model/DynArgs) | equality with the static types, then C31; inversion of the byte loops |
| C121 | the u32 gas counter of run_program_with_options along every run of the processor model (Model/GasReport) | C121_partial / C121_overflow: induction over the schedule; C121_violated: induction over the iterations of a loop, then C42_plaintext and C39_termination |
| C122 | trivial encryptions of integers and bits, constants of an evaluation (Model/TrivialInt) | zero mask, so the phase is the body under every key; bootstrap theorem (C83) for the GGSW constants |
| C123 | sessions: any number of runs of circuits on shared ciphertexts, with new, trivial and copied ciphertexts between them (Spec/CircuitSession, Model/Sched, Model/CtExec) | induction over the session; one step by the theorems for circuits (C16, C19, C94) and the frame of a run |
| C124 | sessions of fluent programs: the encrypted results of one are operands of the next (Spec/FluentSession, on top of C100 and C123) | the circuit built for a program is a step of a session; what is known afterwards by choice of the unique value and bound at each output node |
| C63 | bitwise polynomial addition mod 2 | arithmetic |

## Trusted base

* Lean 4.33.0's kernel, and Mathlib's definitions used in statements (`AdjoinRoot`, `Polynomial`, `ZMod`, `List.Forall₂`, …).
* Axioms: every theorem depends on at most `propext`, `Classical.choice`, `Quot.sound`. No axioms are added; no
  `native_decide`, no `bv_decide`; `decide +kernel` only evaluates closed terms in the kernel.
* The reading of the Rust code documented by the citations.

### Assumed about third-party code
* `biodivine_lib_bdd`: contract `BddLibOk` (operations compute the Boolean function; node lists are ordered). `petgraph`:
  `Topo` is any topological order; vacant slot reuse of `StableGraph` is not modelled. `rayon`: parallel iterators visit
  each element once and collect in order. `bincode` 1.3.3, serde derives and `aligned_vec`: documented behaviour; error kinds
  collapsed. `crypto_bigint`: `add_mod`, `sub_mod`, `mul_wide` exact; `inv_odd_mod` not modelled. The system
  allocator returns disjoint blocks (C61, `SysOk`). `rustfft`: the unnormalised DFT. x86 instructions used in inline assembly:
  Intel's lane-wise description.
* The (8,8), (16,16), (32,32) multiplier circuits and the (64,64) reduction are loaded from bincode files in the
  repository; they enter through the contract `CircLib` and are not verified.

### Simplifications, all stated at the definitions
* Build profile: overflow checks on (debug) unless a definition takes a `checked` flag or says otherwise; `usize` exact.
* Floating-point arithmetic is exact: the transform itself is modelled over `ℂ` (C92), elsewhere it is replaced by exact negacyclic products; in CMUX and bootstrapping the rounding error is an explicit
  argument bounded by `F`. Random draws (masks, noise) are arguments, universally quantified, noise as bounded integers:
  no probability, no security claims. Error bounds are therefore worst case, far above the typical error.
* Ciphertext slices are structured lists; freshly allocated zero buffers are assumed where the code accumulates (C51 shows why).
* FHE circuit semantics abstract the noise: a wire carries its message. Bridge between the ALU's Boolean view and circuits: C11–C15.
* ELF header parsing and symbol tables, the memory mutex (each operation holds it), and ciphertext registers
  other than L1 GLWE are not modelled. The machine model has fixed code, eager ciphertext contents, over-approximate schedules;
  background evaluation errors are not modelled; panics are reported as faults.
* Concurrency models are sequentially consistent interleavings (no weak memory). Scheduler: dispatcher critical section and
  operator execution are atomic, operator panics not modelled, receivers are not dropped early.
* Fluent API: the bump allocator is not modelled; output cells are argument identifiers.

### Not modelled
Security levels and parameter estimation, key serialization formats beyond C24/C74, the compiler front end and debugger, ZKP crates,
performance, memory safety of `unsafe` code beyond the bookkeeping modelled, distributions of noise.
Not expressible: cryptographic security, wall-clock behaviour.

## Status per property

Generated from `MANIFEST.json`. `_violated` theorems prove, with an explicit witness, that the unchanged code breaks the
full claim; `_partial` theorems prove what does hold.

| Id | Property | Status | Theorems (`Spf.Props.`) | Note |
|----|----------|--------|--------------------------|------|
| C01 | Adder circuits add | proved | `C01_adder`, `C01_adder_rejects_zero_width` |  |
| C02 | Subtractor circuits subtract with borrow | proved | `C02_subtractor` |  |
| C03 | Negation circuit is two's complement | proved | `C03_negator` |  |
| C04 | Bitwise circuits | proved | `C04_and`, `C04_or`, `C04_circuit_and` |  |
| C05 | Equality circuits | proved | `C05_equal`, `C05_not_equal` |  |
| C06 | Unsigned ordering circuits | proved | `C06_unsigned_compare` |  |
| C07 | Signed ordering circuits | proved | `C07_signed_compare` |  |
| C08 | Barrel shifter circuits | proved | `C08_shift_left`, `C08_shift_right`, `C08_arithmetic_shift_right`, `C08_rotate_left`, `C08_rotate_right`, `C08_shift_left_value`, `C08_shift_right_value`, `C08_refusals` |  |
| C09 | Multiplier circuits multiply | proved | `C09_multiplier`, `C09_refusals` |  |
| C10 | Divide-and-conquer multiplication recombination | partial | `C10_widths`, `C10_reduction`, `C10_mul_sound`, `C10_mul_exact`, `C10_mul_exact_small`, `C10_unbalanced_violated`, `C10_33_violated`, `C10_signed_sound`, `nBitsAreTrue_spec`, `C10_circuit_unsigned_partial`, `C10_circuit_signed_partial`, `C10_circuit_widths`, `C10_glev_violated` | exact product proved, on bits and on FHE circuits, for the width families the code supports; unbalanced and odd widths panic and wide Glev products build circuits that cannot run, shown by the *_violated theorems |
| C11 | BDD to multiplexer-circuit conversion preserves meaning | proved | `C11_from_bdds`, `C11_reduced`, `C11_remap_inputs` |  |
| C12 | Circuit optimisation preserves meaning | partial | `C12_optimize`, `C12_cse`, `C12_compact`, `C12_terminates`, `C12_reduced`, `C12_diagrams`, `C12_generators`, `C12_panic_violated`, `C12_duplicate_edges_violated` | soundness proved for every well-formed circuit whenever the optimiser returns; for every circuit made of reduced ordered decision diagrams it provably returns a well-formed circuit; it panics on some other well-formed circuits (the *_violated theorems) |
| C13 | Inserting a mux circuit preserves meaning | proved | `C13_insert_mux`, `C13_insert_bdds` | for circuits whose selectors are exactly their inputs (what from_bdds produces) |
| C14 | Pruning keeps required values | proved | `C14_prune`, `C14_prune_edges` |  |
| C15 | Ciphertext conversion always reaches the requested type | proved | `C15_conversion` |  |
| C16 | Parallel circuit execution equals sequential evaluation | proved | `C16_inputs`, `C16_sequential`, `C16_spawn`, `C16_circuits` | circuits in flight together must not share an output cell, nor use one's output cell as the other's input |
| C17 | Completion callback fires once and last | proved | `C17_callback`, `C17_circuits` |  |
| C18 | Flow control never deadlocks | proved | `C18_progress`, `C18_terminates`, `C18_completes`, `C18_no_tokens`, `C18_circuits` |  |
| C19 | Failing circuits complete with an error | proved | `C19_errors`, `C19_completes`, `C19_circuits` | operator panics not modelled |
| C20 | Packing and unpacking integers | partial | `C20_pack`, `C20_unpack`, `C20_round_trip`, `C20_rejects`, `C20_client`, `C20_full_width_violated` | violated: an integer as wide as the polynomial degree can be packed in a circuit but not encrypted or decrypted by the client |
| C21 | Integer plaintext encoding round-trips | partial | `C21_unsigned_bounds`, `C21_unsigned`, `C21_unsigned_decode`, `C21_signed_bounds_partial`, `C21_signed`, `C21_signed_decode`, `C21_int128_violated` | violated: the 128-bit signed bounds check overflows |
| C22 | Resizing integers preserves in-range values | partial | `C22_unsigned`, `C22_signed_fits`, `C22_signed_shrink_partial`, `C22_signed_violated`, `C22_unsigned_kinds_violated` | violated: shrinking a signed integer keeps its sign bit instead of truncating; unsigned resize panics for L1 GLEV / L1 LWE |
| C23 | Comparing integers of different widths | partial | `C23_unsigned`, `C23_unsigned_eq`, `C23_unsigned_neq`, `C23_signed_partial`, `C23_signed_eq_partial`, `C23_signed_violated` | violated: signed operands of different widths are zero-extended |
| C24 | Deserialized integers have the declared width | partial | `C24_unpacked_partial`, `C24_round_trip`, `C24_packed_partial`, `C24_violated`, `C24_packed_violated` | Accepted exactly when the bytes start with at most N right-sized ciphertexts; the width itself is not checked: 8 zero bytes are an N-bit integer with no bits, and a packed integer of any other bit_len is accepted. |
| C25 | Shared cell never hands out conflicting borrows | partial | `C25_partial`, `C25_granted_partial`, `C25_violated`, `C25_two_writers_violated` | violated: a failed shared borrow decrements the writer's mark |
| C26 | Spinlock excludes and can be retired | proved | `C26_spinlock`, `C26_retired` | sequentially consistent interleavings |
| C27 | Instruction encoding round-trips | proved | `C27_roundtrip`, `C27_injective`, `C27_width_refused` |  |
| C28 | Decoding is total or rejects | partial | `C28_decode_partial`, `C28_total`, `C28_unused_violated` | decoding ignores unused bits of Trunc/Zext/Sext/Ret |
| C29 | Memory reads return the last write | proved | `C29_read_last_write`, `C29_frame`, `C29_unmapped`, `C29_history` |  |
| C30 | Allocations are fresh, page-aligned and disjoint | proved | `C30_allocation`, `C30_disjoint`, `C30_stays_mapped`, `C30_fails_only_when_full`, `C30_oversize`, `C30_allocate_at` |  |
| C31 | Multi-byte values round-trip through memory | partial | `C31_roundtrip`, `C31_success_partial`, `C31_unaligned`, `C31_success_violated` | round trip proved for every type; success needs one more mapped byte than the value has, because the range check includes the page after the end |
| C32 | Loads of words assemble bytes little-endian | proved | `C32_plaintext`, `C32_ciphertext`, `C32_refused` |  |
| C33 | Call arguments do not overlap | partial | `C33_call_layout_partial`, `C33_return_value`, `C33_alignment_violated`, `C33_unaligned_sp_violated` | proved for alignments dividing 16 and a 16-aligned stack pointer; the code violates the claim otherwise |
| C34 | Stack pointer stays aligned | partial | `C34_push`, `C34_aligned_iff`, `C34_aligned_partial`, `C34_aligned_violated`, `C34_overwrites_caller` | padding goes in the wrong direction: aligned exactly when twice the stack pointer is a multiple of the alignment |
| C35 | Plaintext arithmetic matches fixed-width semantics | partial | `C35_binary_partial`, `C35_binary_fits`, `C35_width128`, `C35_width128_violated`, `C35_signed128_violated`, `C35_width_refused`, `C35_not_neg_partial`, `C35_addc_partial`, `C35_subb_partial`, `C35_shr_partial`, `C35_shl_partial`, `C35_shl_violated`, `C35_shra_nonneg_partial`, `C35_shra_violated`, `C35_rotate_partial`, `C35_distance_violated` | false at width 128 (mask overflow), for left shifts that lose bits, arithmetic shifts of negatives and large distances; proved everywhere else |
| C36 | Plaintext and encrypted arithmetic agree | partial | `C36_binary_partial`, `C36_agreement_partial`, `C36_mul33_violated`, `C36_not`, `C36_neg_violated`, `C36_addc`, `C36_subb`, `C36_cmux`, `C36_shift_by_plain_partial`, `C36_shift_by_plain_violated`, `C36_shift_encrypted_partial`, `C36_rotate_violated`, `C36_narrow_distance_violated`, `C36_shl_disagree_violated` | disagreements proved for Neg, multiplication at unsupported widths and several shifts; agreement proved elsewhere |
| C37 | Casts | partial | `C37_zext`, `C37_sext_partial`, `C37_sext_violated`, `C37_trunc_partial`, `C37_trunc_violated`, `C37_refused`, `C37_loadi_partial`, `C37_loadi_violated` | false only for plaintext casts to width 128 |
| C38 | Out-of-order execution equals program order | partial | `C38_steady_partial`, `C38_plaintext`, `C38_timely_partial`, `C38_violated` | false when a branch condition or address is still pending when fetched (violated by a concrete program and schedule); proved for every program in which this cannot happen, in particular plaintext programs |
| C39 | Out-of-order execution makes progress | partial | `C39_progress_partial`, `C39_deadlock_free_partial`, `C39_termination`, `C40_hang_violated` | all schedules; except after a failed dispatch, where the hang is real: C40_hang_violated |
| C40 | Failed dispatch does not hang the processor | partial | `C40_hang_violated`, `C40_violated`, `C40_partial` | an error in the address computation of a load or store hangs run_program; every other fault is reported |
| C41 | Gas limit bounds total gas | partial | `C41_violated`, `C41_partial`, `C41_stops_partial` | the limit is per instruction, not in total |
| C42 | Gas does not depend on the schedule | partial | `C42_violated`, `C42_partial`, `C42_plaintext` | gas reads registers that may be pending |
| C43 | Branches follow computed conditions | partial | `C43_violated`, `C43_path_partial`, `C43_partial` | false when the condition is pending; proved otherwise |
| C44 | Torus encoding tolerates noise | partial | `C44_decode_encode_partial`, `C44_bound_tight`, `C44_wide_violated`, `C44_wide_release_violated`, `C44_zero_bits_violated` | proved for precisions 1..31; the code panics for precisions of 32 bits and more |
| C45 | Radix decomposition recomposes | partial | `C45_digits_partial`, `C45_recompose_partial`, `C45_poly_digits`, `C45_full_width_violated` | proved for every decomposition leaving at least one low bit; the code accepts but panics on full-width decompositions |
| C46 | Monomial rotation is multiplication by X^d | proved | `C46_rotation`, `C46_compose`, `C46_inverse`, `cls_determines` |  |
| C47 | Polynomial multiplication is ring multiplication | proved | `C47_mad`, `C47_refusals` |  |
| C48 | Automorphism X -> X^k | proved | `C48_pow_k`, `C48_mul`, `C48_add`, `C48_even_keeps_stale_contents` |  |
| C49 | Sample extraction extracts the right coefficient | proved | `C49_sample_extract` |  |
| C50 | LWE decryption inverts encryption | proved | `C50_lwe`, `C50_lwe_decode`, `C50_trivial` |  |
| C51 | GLWE decryption inverts encryption | partial | `C51_glwe_partial`, `C51_reused_buffer`, `C51_reused_buffer_violated` | proved for zeroed buffers; encryption accumulates into a reused buffer, which breaks the claim |
| C52 | Homomorphic linear operations | proved | `C52_add`, `C52_sub`, `C52_poly_mad`, `C52_scalar_mad`, `C52_neg`, `C52_rotate`, `C52_monomial`, `C52_lwe` |  |
| C53 | Key switching preserves the message up to a bounded error | partial | `C53_keyswitch_partial`, `C53_decode_partial`, `C53_uniform_key_violated` | violated: with overflow checks on, key generation panics for keys with an element of at least 2^log (uniform keys); full-width decompositions panic (C45) |
| C54 | Modulus switching rounds | partial | `C54_rounds`, `C54_range`, `C54_range_violated` | rounding proved for all parameters; the range claim fails for log_v > 0 |
| C55 | Lookup tables evaluate the function | proved | `C55_lookup`, `C55_upper_half` | rotation by any phase in the slot of m (half-open interval) leaves f(m) in the constant coefficient; the upper half of the torus gives the negation |
| C56 | External product and CMUX select | proved | `C56_glev_cmux`, `C56_external_product`, `C56_cmux`, `C56_near_decodes` | the floating point FFT is not modelled: products are exact negacyclic products plus, for CMUX, an explicit bounded error polynomial; the external product theorem has no such error term |
| C57 | Goldilocks field arithmetic is canonical and exact | partial | `C57_modulus_prime`, `C57_add_sub_partial`, `C57_mul_mad`, `C57_reduce`, `C57_reduce_wide`, `C57_unreduced`, `C57_neg_new_partial`, `C57_violated`, `C57_noncanonical_operands`, `C57_inverse` | -0 and Fg::new(p) return the non-canonical word p; everything else exact and canonical |
| C58 | Barrett reduction is exact | proved | `C58_barrett`, `C58_inadmissible` |  |
| C59 | Triangular pair iteration | proved | `C59_pairs`, `C59_count`, `C59_parallel` |  |
| C60 | Combination enumeration and ranking | proved | `C60_enumeration`, `C60_count`, `C60_new_errors`, `C60_fused`, `C60_rank`, `C60_unrank`, `C60_inverse` |  |
| C61 | Scratch buffers do not alias | proved | `C61_no_alias`, `C61_allocate_total` |  |
| C62 | Exponentiation | proved | `C62_pow`, `C62_pow_goldilocks`, `C62_narrow_exponent_panics` |  |
| C63 | One-time-pad recryption | proved | `C63_otp`, `C63_otp_public` | noise bound is a hypothesis; FFT replaced by exact products |
| C64 | Running a program leaves the stack pointer where it was | partial | `C64_stack_pointer_violated` | the code violates the claim: every run leaks its frame; proved exactly how much |
| C65 | Loading a program puts every segment's bytes in memory | proved | `C65_program_loaded` |  |
| C66 | Store then load returns the stored value | partial | `C66_roundtrip_partial`, `C66_same_register_violated`, `C66_width_violated`, `C66_narrow_violated`, `C66_unaligned` | fails for equal operand registers (panic), widths not multiple of 8, narrow ciphertexts (panic) |
| C67 | Roots of unity and NTT twiddle tables | proved | `C67_root`, `C67_other_sizes`, `C67_twiddles` |  |
| C68 | Integers modulo q form a ring | partial | `C68_arith`, `C68_conversions_partial`, `C68_from_i64_violated`, `C68_extend`, `C68_inverse`, `C68_not_a_field_violated`, `C68_serialization` | conversion from an i64 below -q is wrong; the inverse is that of crypto_bigint, taken at its documentation, and is_field is not checked |
| C69 | RLWE public-key encryption decrypts | proved | `C69_rlwe` | FFT replaced by exact products |
| C70 | Every declared integer type is usable | partial | `C70_usable_partial`, `C70_uint256_violated` | violated: 256-bit types shift a u128 by 255 |
| C71 | Constant bits are available for every ciphertext kind | partial | `C71_one_partial`, `C71_zero_partial`, `C71_violated` | violated: constants of kind L1 GLEV and L1 LWE panic |
| C72 | Handles stay valid while a circuit is built | partial | `C72_partial`, `C72_mul_partial`, `C72_violated` | every operation but multiplication keeps all handles; multiplication renumbers the circuit and keeps only the product and collected outputs, so other handles and the cached constants are invalidated (C72_violated) |
| C73 | A fluent program computes its plaintext meaning | partial | `C73_programs_partial`, `C73_outputs_partial`, `C73_mul_partial`, `C73_panics_violated`, `C73_value_violated`, `C73_compare_violated` | C73_mul_partial covers every operation of the fluent API, with results collected at any point; the calls refuted elsewhere (C10 Glev above 16 bits, C22, C23, C71, handles and constants across a multiplication: C72) are not accepted |
| C74 | Safe deserialization accepts exactly well-sized values | proved | `C74_accepts_exactly`, `C74_round_trip` | bincode and serde derives modelled from documented behaviour. |
| C75 | Univariate programmable bootstrapping evaluates the function | proved | `C75_univariate` | Fourier transform replaced by exact products plus a bounded error per CMUX; the error bound is worst case |
| C76 | Generalized bootstrapping evaluates every packed function | partial | `C76_generalized_partial`, `C76_full_slot_violated` | proved when two blocks of packed values fit in a slot; violated when one block fills a slot: the table is accepted and selects another function |
| C77 | Bivariate programmable bootstrapping evaluates the function of both inputs | partial | `C77_bivariate`, `C77_decode_carry`, `C77_documented_use_violated` | proved with a padding bit; the documentation's own example omits it, and for it inputs (1,0) of XOR give 0 |
| C78 | GLWE keyswitching preserves the message | proved | `C78_glwe_keyswitch` | exact products; the Fourier version has an explicit bounded error of the inverse transform |
| C79 | The homomorphic trace keeps only the constant coefficient | partial | `C79_trace_partial`, `C79_overflow_violated` | proved for every key without overflow checks and for binary keys with them; violated with overflow checks: key generation panics for ternary or uniform keys |
| C80 | Scheme switching turns a GLev ciphertext of a bit into a GGSW ciphertext of it | partial | `C80_scheme_switch`, `C80_fft_partial`, `C80_fft_stale_violated` | plain version proved for every previous output; the Fourier version is proved for a zero output and violated otherwise: it accumulates onto the stale output |
| C81 | Every instruction has its documented effect on the architectural state | partial | `C81_binary_partial`, `C81_addc_partial`, `C81_subb_partial`, `C81_cmux`, `C81_not_partial`, `C81_neg_partial`, `C81_move`, `C81_loadi_partial`, `C81_zext`, `C81_sext_partial`, `C81_trunc_partial`, `C81_shift_by_plain_partial`, `C81_shift_encrypted_partial`, `C81_shift_plain_partial`, `C81_branch`, `C81_branch_encrypted`, `C81_ret`, `C81_store_partial`, `C81_load`, `C81_dbg` | all instructions of the table; restrictions are those of C35-C37 and C66, where the code violates the claim |
| C82 | Gas prices cover homomorphic work | proved | `C82_plaintext`, `C82_background`, `C82_sources`, `C82_limit` |  |
| C83 | Circuit bootstrapping yields a selector for the encrypted bit | partial | `C83_circuit_bootstrap_partial`, `C83_stale_violated`, `C83_full_precision_violated` | For all parameters (dimensions, degree 2^n, radixes), binary keys, masks, bounded noises and Fourier errors: key generation and circuit bootstrap succeed and the output selects by the input bit, with an explicit noise bound independent of the input noise. Violations: an output that is not fresh is accumulated into; a GGSW radix with log*count = W-1 is accepted but every call panics. The noise bounds are worst case. |
| C84 | Private functional keyswitching applies the secret map | partial | `C84_any_output`, `C84_private_keyswitch_partial`, `C84_pack_partial`, `C84_stale_violated` | proved for every additive Lipschitz map, key, mask, bounded noise and input: a fresh output gets the image, and any output m0 gets the image minus m0; so the claim is violated for outputs that are not zero, since the code does not clear the output |
| C85 | Circuit bootstrapping through functional keyswitching yields a selector for the encrypted bit | partial | `C85_circuit_bootstrap_partial`, `C85_stale_violated` | for all dimensions, degrees 2^n, radixes, binary keys, masks, bounded noises and Fourier errors into a fresh output; violated for an output that is not fresh, which the keyswitch subtracts from |
| C86 | Public functional keyswitching applies the caller's map | partial | `C86_public_keyswitch_partial`, `C86_zero_scratch_partial`, `C86_pack_partial`, `C86_scratch_violated`, `C86_accumulate_violated` | proved for maps that write every coefficient (any scratch contents), and for zeroed scratch memory and maps that do not depend on what they wrote before; violated otherwise: the polynomial given to the map is neither initialized to 0 nor cleared between calls, contrary to the documentation |
| C87 | Blind rotation rotates by the encrypted amount | proved | `C87_blind_rotation`, `C87_decodes`, `C87_range` |  |
| C88 | GLev and GGSW encryption round trip | partial | `C88_glev_partial`, `C88_ggsw_partial`, `C88_trivial_glev`, `C88_truncation_violated`, `C88_full_width_violated`, `C88_trivial_ggsw_violated`, `C83_circuit_bootstrap_partial` | proved for messages below the base; violated for wider messages, which encryption accepts and decryption truncates, for a single digit of the full torus width, and for trivial GGSW ciphertexts, which decrypt but do not select |
| C89 | Public-key RLev encryption | partial | `C89_rlev_partial`, `C89_rlev_selects_partial`, `C89_small_degree_violated` | proved for all degrees of at least 16; violated below: a leftover debug print of the first 16 coefficients panics (it also writes the scaled plaintext to stderr in every case) |
| C90 | Vector kernels agree on every CPU | partial | `C90_add_partial`, `C90_sub_partial`, `C90_scalar_mad_partial`, `C90_complex_mad_partial`, `C90_same_partial`, `C90_sub_violated`, `C90_scalar_mad_violated`, `C90_scalar_mad_dq_violated`, `C90_overflow_violated`, `C90_complex_mad_violated` | Full claim violated: without AVX2 polynomial_sub adds; the AVX-512 scalar multiply-add leaves its slices when the length is not a multiple of 16 and needs AVX512DQ, which is not queried; builds with overflow checks panic on wrap-around; degrees below 16 panic on x86-64. Proved under the conditions that exclude these; floating point is exact. |
| C91 | The inverse transform reduces onto the torus exactly | partial | `C91_reduce_partial`, `C91_reduce_near`, `C91_half_violated` | Full claim violated: a remainder of -q/2 is stored as q/2 - 1. Proved for all other integers, and within one unit for all. f64 values are exact integers. |
| C92 | The negacyclic transform multiplies polynomials | partial | `C92_fft_dot_partial`, `C92_fft_mul_partial`, `C92_roundtrip_partial`, `C92_half_violated`, `C92_degree_violated` | Exact (real) arithmetic; rustfft by its documentation. Degrees 2 to 4096: equality except that one half may come out one unit lower (C92_half_violated); degrees 1 and above 4096 panic. |
| C93 | Sub-allocations are disjoint, mapped, aligned and coalesced | partial | `C93_disjoint`, `C93_aligned`, `C93_coalesce_partial`, `C93_third_violated`, `C93_exact_fit_violated` | Disjoint, mapped and aligned (for alignments dividing the page size) in every history. Coalescing is proved for the second request only: the free position is stored as an absolute address, so the third request always maps new pages, and an exact fit does too (both proved as violations). |
| C94 | Circuits evaluated on ciphertexts compute what they compute on messages | partial | `C94_circuit_partial`, `C94_encrypt`, `C94_encrypt_succeeds`, `C94_decrypt`, `C94_end_to_end_partial`, `C94_not_violated` | Key generation, client encryption, ciphertext-level execution of any circuit under any schedule, and decryption, with a static worst-case noise analysis; the analysis covers CMUX circuits over fresh selectors at the 128-bit parameters, and bootstraps at smaller ones. `not` negates only the constant coefficient (violated). |
| C95 | Polynomial arithmetic over a ring | partial | `C95_is_zero`, `C95_degree`, `C95_evaluate`, `C95_add`, `C95_sub`, `C95_neg_smul`, `C95_mul`, `C95_zero_one`, `C95_div_rem_partial`, `C95_div_by_zero`, `C95_div_rem_violated`, `C95_eq_partial`, `C95_eq_complete`, `C95_eq_monic`, `C95_eq_violated` | arithmetic, degree and division by monic polynomials proved; violated: == ignores the leading coefficient (all non-zero constants are equal), and divisors that are not monic are accepted with an unreduced remainder |
| C96 | LWE public-key encryption | proved | `C96_generate`, `C96_encrypt`, `C96_decrypts` | exact noise expression and worst-case bound |
| C97 | Iterators over ciphertexts and keys | partial | `C97_iter`, `C97_iter_rejects`, `C97_chunks_flatten`, `C97_len_violated`, `C97_iter_mut_partial`, `C97_empty_violated`, `C97_items`, `C97_parallel`, `C97_parallel_mut` | violated: the length reported by a shared iterator never decreases; a mutable iterator over an empty entity panics with overflow checks. Rayon is represented by every way of splitting a producer. |
| C98 | Layout of ciphertexts and keys | proved | `C98_lwe`, `C98_glwe`, `C98_glwe_fft`, `C98_check`, `C98_write` | Justifies the structured values used by the other models in place of slices. |
| C99 | Running statistics are exact | proved | `C99_running`, `C99_order`, `C99_nonneg`, `C99_polytope`, `C99_convex` | f64 replaced by exact rationals, as the property says |
| C100 | Programs over encrypted integers compute the right integers end to end | partial | `C100_build_partial`, `C100_run_partial`, `C100_mul_partial`, `C100_violated` | False as stated: C100_violated runs a two-call program (resize a signed input to fewer bits) on ciphertexts, for all keys, noise and schedules, and the client decrypts -2 where the program means 0. The partial theorems compose C73 (fluent programs) with C94 (homomorphic execution) and C16/C17/C19 (scheduler); C100_mul_partial includes multiplication and interleaved outputs; partial because the calls refuted elsewhere (see C73_panics_violated, C73_value_violated, C73_compare_violated) are not accepted and the noise bounds are worst-case |
| C101 | Graph traversal visits every node once, dependencies first | proved | `C101_traverse`, `C101_acyclic`, `C101_terminates`, `C101_cycle_skipped` |  |
| C102 | The circuit evaluator returns what the circuit computes | partial | `C102_test_mux_circuit_partial`, `C102_arity`, `C102_from_bdds`, `C102_optimized`, `C102_optimized_partial`, `C102_holes_violated`, `C102_order_violated` | the evaluator panics on circuits with removed nodes and orders outputs by node rather than by number; proved for circuits without holes whose outputs are numbered in node order (every circuit built from diagrams) |
| C103 | A computer can be used again: earlier programs, even failed ones, leave no trace in later ones | proved | `C103_used_like_new`, `C103_new_like_used`, `C103_result` | By a simulation: a run on a used computer is a run on a new one with all instruction numbers shifted by the number of earlier instructions. C103_result transports C38's steady-program result to used computers. The runs that hang (C40) never return and so have no successor. |
| C104 | pack_int and unpack_int on ciphertexts | proved | `C104_pack`, `C104_unpack`, `C104_roundtrip`, `C104_reject` | The noise of packing is in closed form (width times the noise of a bit), not a hypothesis on the circuit; unpacking needs the input noise plus that of the keyswitch to be below the bootstrap limit. |
| C105 | Programs of the processor on ciphertexts decrypt to the results of the program in the clear | proved | `C105_program`, `C105_any_length`, `C105_faults`, `C106_processor` | one instruction at a time on shared cells; instructions that overlap are C106 |
| C106 | The out-of-order processor computes on ciphertexts what the program computes in the clear, under every schedule | proved | `C106_processor`, `C106_any_length`, `C106_run_schedule` | Cells are replaced by their contents (a cell is written once); C106_run_schedule ties the results of an instruction to every schedule of the worker threads. |
| C107 | Programs kept in the memory they compute on | proved | `C107_stored_program`, `C107_image`, `C107_self_modifying_violated` | C107_self_modifying_violated shows that the condition on self-modifying code is needed: the processor does not order instruction fetches after pending stores. |
| C108 | A call of a program in memory, end to end on ciphertexts | proved | `C108_run_program`, `C108_noise`, `C108_frame` | C108_run_program: programs of any length without xor/cmux/shifts; C108_noise: any instructions, given a successful noise analysis. |
| C109 | Encrypted integers as clients make and open them | proved | `C109_packed`, `C109_packed_refuses`, `C109_packed_trivial`, `C109_unpacked`, `C109_secret`, `C109_recrypted` | Widths up to 127 signed / 128 unsigned (signed 128-bit is C21_int128_violated). |
| C110 | From a client's integers to its integer result | proved | `C110_integer_call`, `C110_integer_call_noise` | C110_integer_call: programs of any length without xor/cmux/shifts; C110_integer_call_noise: any instructions, given a successful noise analysis. |
| C111 | The compact protocol: packed integers in, packed result out | proved | `C111_packed_call` | Composes C109, C104 and C108. Programs without xor/cmux/shifts, of any length; the noise bounds are worst-case bounds on the parameters. |
| C112 | Rounded division and torus distance are exact | partial | `C112_div_rounded_partial`, `C112_div_rounded_bound`, `C112_div_rounded_violated`, `C112_div_rounded_signed_partial`, `C112_div_rounded_signed_violated`, `C112_distance` | Distance: proved in full (exact values, f64 rounding not modelled). Division: nearest integer proved for even divisors and nonnegative dividends; violated for every odd divisor (x / 1 gives x + 1, and panics at the maximum) and for negative dividends. |
| C113 | Sampling is unbiased and generated keys are valid | partial | `C113_uniform`, `C113_binary`, `C113_key_uniform`, `C113_key_binary`, `C113_generated`, `C113_secret_key`, `C113_normal`, `C113_normal_violated`, `C113_from_u64_violated` | Exact counts of generator outcomes. Violated: u32::from_u64 takes the low bits where the trait documents the high bits; Gaussian samples beyond i64 saturate. The generator itself (thread_rng) and the Gaussian distribution are not modelled. |
| C114 | Arithmetic on keys and ciphertexts: additive key shares, homomorphic operators | partial | `C114_lwe_key`, `C114_threshold`, `C114_hiding`, `C114_reconstruct`, `C114_lwe_ciphertexts`, `C114_glwe_key`, `C114_glwe_ciphertexts`, `C114_lengths_violated` | Everything proved for operands of equal size; violated: operands of different sizes are silently truncated instead of refused. |
| C115 | Security estimates: accepted inputs, monotonicity, consistency | partial | `C115_evaluate`, `C115_evaluate_1d`, `C115_region`, `C115_level_monotone`, `C115_dimension_monotone`, `C115_inverse_accepts_partial`, `C115_dimension_violated`, `C115_levels_violated`, `C115_constraint_violated` | Exact arithmetic in place of f64. Monotonicity proved over the whole region. Violated: the inverse refuses dimensions 368..385 (386 typed for 368) and levels 78 and 130; 78 bits are refused from dimension 1436, not 1472. |
| C116 | Graph transforms do what they say | proved | `C116_apply`, `C116_untouched`, `C116_deferred`, `C116_push`, `C116_cse`, `C116_stale` | Refinement of apply against a named-graph semantics where names are never reused. C116_stale records that a deferred index used after its node was removed is not rejected and may designate another node (outside the hypothesis of C116_apply). |
| C117 | Debug handlers see program order values, each call once | partial | `C117_watch`, `C117_calls_partial`, `C117_ordered_partial`, `C117_order_violated`, `C117_faulted` | exactly the calls of program order, for every schedule of a steady program; their order is program order when no dbg reads a pending register and can differ otherwise (C117_order_violated); the steadiness condition is that of C38 |
| C118 | A one-time pad hides the recrypted message perfectly | proved | `C118_pad`, `C118_secret`, `C118_reuse_violated` | outcomes of the generator are counted (uniform 64-bit words); the ciphertext the committee also holds is treated as what it decrypts to (an information-theoretic statement about the plaintext view; computational security of RLWE is not modelled); C118_reuse_violated shows the documented restriction to one message is necessary and not enforced |
| C119 | Any number of encrypted calls, results passed on | proved | `C119_calls`, `C119_memory`, `C119_calls_noise` | C119_calls: programs without xor/cmux/shifts, any number of calls; C119_calls_noise: any instructions, given a noise analysis per call; by induction over the calls; memory between calls = contents after the run, unchanged page table, unrestored stack pointer (C64) |
| C120 | Integers of dynamic width behave as those of static width | proved | `C120_static`, `C120_refused`, `C120_roundtrip`, `C120_load` | reading back needs the byte after the value mapped too, as for static types (C31) |
| C121 | The gas a run reports | partial | `C121_partial`, `C121_overflow`, `C121_short`, `C121_violated` | False as stated (C121_violated): a five-instruction plaintext loop counting down from 2^31 returns normally under every schedule after 2^32+2 units, of which a build without overflow checks reports 2, and with them panics (proved by induction over the loop, every complete run). C121_partial: below 2^32 the report is the sum of the charges, both builds, every program, limit and schedule. C121_overflow: what is reported beyond. C121_short: a steady program of at most 8589 instructions reports exactly its gas in program order, under every schedule. |
| C122 | Trivial encryptions of integers and bits | proved | `C122_trivial`, `C122_trivial_ggsw`, `C122_constants`, `C122_refuses`, `C122_circuit`, `C122_bit` | The GGSW theorems take the worst-case noise of a bootstrap as their bound on the constants (C83); floating-point errors are arbitrary within a bound. |
| C123 | Sessions of circuits on the same ciphertexts | proved | `C123_session`, `C123_completes` | Noise is bounded in the worst case, given as a hypothesis on each circuit (Spec/CtNoise.noiseOp); an example carries a session of any length. |
| C124 | Results of fluent programs feed the next program without decryption | partial | `C124_step`, `C124_session_partial` | Language as in C73/C100 (lib: any correct table of comparison and addition diagrams); noise bounds are worst-case as in C94. |
