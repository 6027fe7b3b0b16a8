# Formal model of Sunscreen-tech/spf in Lean 4 — design

## Layout

* `properties.jsonl` – English properties C01… (statement, quantifier, anchors).
* `lean/Verif/Model/*.lean` – executable model, one file per area of the code; every definition cites
  the file and lines in `/repo` it models and says where it simplifies.
* `lean/Verif/Spec/*.lean` – small specifications (value of a bit list, meaning of a circuit, sequential semantics,
  negacyclic ring, nearness of torus elements, …) used in theorem statements, written without reference to the model's helpers.
* `lean/Verif/Proof/*.lean` – helper lemmas.
* `lean/Verif/Props/*.lean` – the property theorems, each beside an `example` showing that a concrete,
  non-trivial case meets its hypotheses.  Theorem names start with the property id (`C01_…`).
* `MANIFEST.json` – property → theorems (generated by `gen_manifest.py` from `manifest_table.py`).
* `seeded/LOG.jsonl` – mutation log.  `DESIGN.md` is `design_head.md` plus a table generated by `gen_design.py`.

Conventions: a Rust panic (assert, overflow under debug assertions, index out of range, `unwrap` of `None`)
is an explicit error value (`none` / an error constructor), never a default value.  `&mut` becomes a returned value.
Threads become nondeterministic step relations: a theorem about "every schedule" quantifies over every
sequence of enabled atomic steps.

When the unchanged code violates a property, the property keeps its full statement; the negation is proved
with a concrete witness (name contains `_violated`), and what does hold is proved under the suffix `_partial`.

## How each area is modelled and proved

| Ids | Model | Proof |
|----|-------|-------|
| C01–C07 | circuit generators as functions building Boolean functions (meaning of a decision diagram = Boolean function of the inputs; contract `BddLibOk` of the BDD library) | induction on width against the `Nat` value of a bit list |
| C08 | barrel shifter layers | induction on layers; index arithmetic |
| C09, C10 | array multiplier, grade-school reduction, `mul_impl` recursion | induction, linear arithmetic |
| C11–C14 | mux graphs and FHE circuits as node/edge arrays, evaluated in any topological order | simulation, induction on node index |
| C15 | conversion recursion over the 5 ciphertext kinds | case analysis lifted over every circuit |
| C16–C19 | task scheduler as nondeterministic transition system (submit / dispatch / execute / notify / retire) | inductive invariants, refinement to sequential evaluation, variant for progress |
| C20–C24, C70–C74 | fluent integers: bit lists, client-side plaintext packing, circuit-building API with handles, programs as lists of API calls, bincode deserialisation | induction over programs; witnesses for the violations |
| C25, C26 | cell / lock state machine over any interleaving | inductive invariant |
| C27, C28 | instruction bit fields | arithmetic per field, lifted to every instruction and word |
| C29–C34, C64–C66 | page-table memory, allocator, typed access, call frame layout, ELF segments | invariants by induction over operation lists |
| C35–C37 | plaintext ALU with explicit overflow panics; ciphertext ALU as composition of the C01–C09 circuits | arithmetic against `Nat`/`Int` specs |
| C38–C43 | Tomasulo machine as nondeterministic transition system with rename tables, reservation of pending operands, gas | refinement to in-order semantics; witnesses for violations |
| C44–C56, C75–C77 | torus = `BitVec W`; polynomials = coefficient lists, meaning in Mathlib's `AdjoinRoot (X^N+1)`; LWE/GLWE/GLev/GGSW ciphertexts as structured lists; noise as bounded integers | ring algebra, a calculus of small elements, rounding arithmetic |
| C57, C58, C62, C67–C69 | exact integer models of the field code, NTT roots, RLWE | arithmetic, `ZMod` |
| C59, C60 | iterators as state machines | induction |
| C61 | scratch stack as state machine | invariant |
| C78–C80, C83–C89 | GLWE key switching, trace, scheme switch, circuit bootstrap, functional key switches, blind rotation, GLev/GGSW decryption on the same lists | the phase/noise calculus of C56, induction over rows, levels and key bits |
| C81, C82 | instruction execution and gas, per instruction | case analysis over the instruction set against `Seq.step` |
| C90 | vector kernels register by register (loads, stores, shuffles, lane arithmetic) over slices with an address; dispatch over CPU features and build profile | loop invariants over 16-word blocks |
| C91, C92 | inverse-transform reduction over `Int`; twisted DFT over `ℂ` in exact arithmetic | evaluation homomorphism of `Z[X]/(X^N+1)`, orthogonality of roots of unity |
| C93 | sub-allocator over the page-table model | invariant over histories of live allocations |
| C94 | ciphertext-level interpretation of operators, key generation and client (Model/CtExec) | per-operator noise lemmas (from C49-C56, C80, C83), induction over evaluation, generic scheduler theorem (Proof/SchedGen) |
| C95 | coefficient lists over any commutative ring, loops as written (Model/RingPoly) | Mathlib `Polynomial`: coefficients, `divByMonic` uniqueness; loop invariants |
| C96 | LWE public keys (Model/LwePk) | phase is linear; sums of bounded noises |
| C97, C98 | strided iterators as index state machines, parallel splitting as trees, sizes and accessors of entities (Model/Dst, Model/Layout) | refinement to double-ended queues; flat slices and structured values are inverse to each other |
| C99 | running mean/variance and polytopes over rationals (Model/Stats) | invariant over the sample list; field arithmetic |
| C100 | fluent programs, output collection, parallel execution on ciphertexts (Model/FluentProg collectAll, Model/FluentMulProg execM, with Model/CtExec, Model/Sched) | composition of C73, C94 and C16–C19; invariant that every node of a built circuit has a value |
| C101 | graph traversal with an arbitrary stateful callback (Model/Traverse) | loop invariant over ready/visited/stack, order independent of the callback |
| C102 | the plaintext circuit evaluator (Model/Traverse) | on top of C101; invariant "nodes done hold their value" against Spec/MuxSem; violations for removed nodes and output order |
| C103 | the state a second run finds: `reset`, the end of `run_program_with_options` (`fhe_processor.rs`) | simulation: `step` commutes with shifting the instruction numbers; a finished run leaves only retired instructions (induction over the history) |
| C104 | `FheComputer::pack_int`, `unpack_int` (parasol_cpu/src/proc/mod.rs:318-383): the circuits built from the fluent operations, run by the circuit processor on ciphertexts | noise analysis of the circuits as they are built (sum over the addition tree; keyswitch, bootstrap and multiplication by one for unpacking), composed with the scheduler and ciphertext theorems of C94; the round trip chains two runs |
| C105 | registers and memory as references to ciphertext cells, the instructions as jobs on cells, the circuits of the jobs, multiplication through the recursive multiplier and pruning, the run of a program one instruction at a time (parasol_cpu/src/proc/ops/*.rs, fhe_processor.rs, parasol_runtime/src/fhe_circuit.rs:424-483) | simulation of the machine on bits by the machine on cells; each job is built, computes its bits and has the noise of its analysis; induction on the number of instructions |
| C106 | the processor whose registers and memory hold ciphertexts, as an instance of the out-of-order machine; results of an instruction by evaluating its circuit on ciphertexts (parasol_cpu/src/proc/fhe_processor.rs, ops/*.rs, parasol_runtime/src/circuit_processor/mod.rs:255-640) | the machine theorems of C38/C39 for this instance; simulation between the instances on bits, noise, ciphertexts and pairs of bit and ciphertext; evaluation of a circuit agrees with every schedule (C16) |
| C107 | `Machine.runM`: every fetch decodes the eight bytes at the program counter from the memory of that moment (fhe_processor.rs:659-690, memory/mod.rs:554-594) | Every byte of memory is, at any time, the byte of program order after some prefix of the instructions (`mem_prefix`); code that no prefix changes is therefore always read unchanged, so the run is a run of the fixed program and C38/C39 apply; a concrete schedule refutes the claim for self-modifying code |
| C108 | `Ty`/`setUpCall`/`returnValue` (args.rs, fhe_processor.rs:543-631) around the processor of C106 whose program is in memory (C107) | The call frame, the return value and a run are parametric in the type of encrypted bits: relational lemmas carry "encrypts with noise at most B" (or the noise analysis) through set-up, every instruction and the read of the return value; C38, C39 and C107 cover schedules |
| C109 | client-side integers (fluent/generic_int.rs, dynamic_generic_int.rs, recrypted_int.rs, crypto/recryption.rs) in Model/EncInt | phase bounds of C69 (public key), the bit layout of packed integers, then decoding below the decryption limit |
| C110 | composition of Model/EncInt with Model/RunProgram | C109 gives the held arguments, C108 the run, intDecrypt_ok opens the result |
| C111 | composition: packed client integers (Model/EncInt), unpack_int/pack_int circuits under the scheduler (Model/Computer), run_program (Model/RunProgram) | C109 gives held polynomials, C104 held bits, C108 held results, C104 again, then decoding |
| C112 | `div_rounded` on unsigned and signed types, torus distance (math/basic.rs, math/torus.rs) | exact integer arithmetic; minimality over all offsets mod 1 |
| C113 | `from_u64`, `uniform_torus`, `binary`, `normal_torus`, key generation (rand.rs, entities/*_secret_key.rs, crypto/keys.rs) | counting generator outcomes per result; products over key elements |
| C114 | operators of keys and ciphertexts on flat slices (macros.rs, entities) | linearity of the dot product in key and mask, in the negacyclic quotient ring for GLWE |
| C115 | security estimates with their polytopes and coefficient tables, exact rationals (sunscreen_math/src/security.rs) | Bernstein expansions of difference quotients with positive coefficients over the box of dimensions and levels |
| C116 | transform lists, deferred indices, push and apply on a StableGraph with free list (mux_circuits/src/opt.rs) | refinement invariant against a named-graph semantics whose names are never reused |
| C117 | dbg instruction and handler calls along schedules of the out-of-order processor (parasol_cpu/src/proc/ops/dbg.rs, fhe_processor.rs) | invariant relating the order of execution to program order on top of C38; witness schedule for the order |
| C118 | one-time pads: generation (Model/OneTimePad), recryption and decryption (Model/Rlwe, Model/EncInt); what the committee sees (Spec/OneTimePad) | counting of generator outcomes (C113) composed with the end-to-end recryption theorem (C109) |
| C119 | calls in a row on one memory (Model/RunProgram `Mem.after`, Spec/Calls, Spec/CallsNoise) | the simulation behind C108 also relates the whole memory after a run, with noise at most B (`C119_calls_noise`: with the bound of the noise analysis of that call); induction over the list of calls |
| C120 | integers of dynamic width (Model/DynArgs) | equality with the static types, then C31; inversion of the byte loops |
| C121 | the u32 gas counter of run_program_with_options along every run of the processor model (Model/GasReport) | C121_partial / C121_overflow: induction over the schedule; C121_violated: induction over the iterations of a loop, then C42_plaintext and C39_termination |
| C122 | trivial encryptions of integers and bits, constants of an evaluation (Model/TrivialInt) | zero mask, so the phase is the body under every key; bootstrap theorem (C83) for the GGSW constants |
| C123 | sessions: any number of runs of circuits on shared ciphertexts, with new, trivial and copied ciphertexts between them (Spec/CircuitSession, Model/Sched, Model/CtExec) | induction over the session; one step by the theorems for circuits (C16, C19, C94) and the frame of a run |
| C124 | sessions of fluent programs: the encrypted results of one are operands of the next (Spec/FluentSession, on top of C100 and C123) | the circuit built for a program is a step of a session; what is known afterwards by choice of the unique value and bound at each output node |
| C63 | bitwise polynomial addition mod 2 | arithmetic |

## Trusted base

* Lean 4.33.0's kernel, and Mathlib's definitions used in statements (`AdjoinRoot`, `Polynomial`, `ZMod`, `List.Forall₂`, …).
* Axioms: every theorem depends on at most `propext`, `Classical.choice`, `Quot.sound`. No axioms are added; no
  `native_decide`, no `bv_decide`; `decide +kernel` only evaluates closed terms in the kernel.
* The reading of the Rust code documented by the citations.

### Assumed about third-party code
* `biodivine_lib_bdd`: contract `BddLibOk` (operations compute the Boolean function; node lists are ordered). `petgraph`:
  `Topo` is any topological order; vacant slot reuse of `StableGraph` is not modelled. `rayon`: parallel iterators visit
  each element once and collect in order. `bincode` 1.3.3, serde derives and `aligned_vec`: documented behaviour; error kinds
  collapsed. `crypto_bigint`: `add_mod`, `sub_mod`, `mul_wide` exact; `inv_odd_mod` not modelled. The system
  allocator returns disjoint blocks (C61, `SysOk`). `rustfft`: the unnormalised DFT. x86 instructions used in inline assembly:
  Intel's lane-wise description.
* The (8,8), (16,16), (32,32) multiplier circuits and the (64,64) reduction are loaded from bincode files in the
  repository; they enter through the contract `CircLib` and are not verified.

### Simplifications, all stated at the definitions
* Build profile: overflow checks on (debug) unless a definition takes a `checked` flag or says otherwise; `usize` exact.
* Floating-point arithmetic is exact: the transform itself is modelled over `ℂ` (C92), elsewhere it is replaced by exact negacyclic products; in CMUX and bootstrapping the rounding error is an explicit
  argument bounded by `F`. Random draws (masks, noise) are arguments, universally quantified, noise as bounded integers:
  no probability, no security claims. Error bounds are therefore worst case, far above the typical error.
* Ciphertext slices are structured lists; freshly allocated zero buffers are assumed where the code accumulates (C51 shows why).
* FHE circuit semantics abstract the noise: a wire carries its message. Bridge between the ALU's Boolean view and circuits: C11–C15.
* ELF header parsing and symbol tables, the memory mutex (each operation holds it), and ciphertext registers
  other than L1 GLWE are not modelled. The machine model has fixed code, eager ciphertext contents, over-approximate schedules;
  background evaluation errors are not modelled; panics are reported as faults.
* Concurrency models are sequentially consistent interleavings (no weak memory). Scheduler: dispatcher critical section and
  operator execution are atomic, operator panics not modelled, receivers are not dropped early.
* Fluent API: the bump allocator is not modelled; output cells are argument identifiers.

### Not modelled
Security levels and parameter estimation, key serialization formats beyond C24/C74, the compiler front end and debugger, ZKP crates,
performance, memory safety of `unsafe` code beyond the bookkeeping modelled, distributions of noise.
Not expressible: cryptographic security, wall-clock behaviour.
