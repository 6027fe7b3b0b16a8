import Verif.Model.Bdd
import Verif.Model.Arith
import Verif.Model.Mul
import Verif.Model.Combination
/-! Model of the recursive multiplication: `mux_circuits/src/mul.rs` (lines 227-585) and
`parasol_runtime/src/circuits/mul.rs`. -/
namespace Spf.Mul
open BddFn Spf.Comb

/-- mux_circuits/src/mul.rs:238-250: the clause of one combination `c`. -/
def clause (bits : List BddFn) (c : List Nat) : BddFn :=
  bits.zipIdx.foldl (fun cl xi => if c.contains xi.2 then and cl xi.1 else and cl (not xi.1)) mkTrue

/-- mux_circuits/src/mul.rs:231-254 `n_bits_are_true`; the `unwrap` panics when `n > bits.len()` or there are no
bits (the model then returns `mkFalse`; never the case below). The `for` loop runs the iterator to exhaustion. -/
def nBitsAreTrue (bits : List BddFn) (n : Nat) : BddFn :=
  match Combinations.new bits.length n with
  | .error _ => mkFalse
  | .ok it => (it.collect (numberCombinations bits.length n + 1)).foldl (fun r c => or r (clause bits c)) mkFalse

/-- mux_circuits/src/mul.rs:256 `CIRCUIT_CUTOFF`. -/
def circuitCutoff : Nat := 16

/-- mux_circuits/src/mul.rs:264-273 `partition_integer` (lower, upper). The `f64` floor/ceil of `n / 2` is exact for
`n < 2^53` and modelled by integer division. -/
def partitionInteger (n : Nat) : Nat × Nat :=
  if n ≤ circuitCutoff then (n, 0) else ((n + 1) / 2, n / 2)

/-- mux_circuits/src/mul.rs:286-387 `encode_gradeschool_reduction`; `none` = an `assert!` fails or a length
subtraction underflows. -/
def encodeGradeschoolReduction {α} (dflt : α) (n m : Nat) (p00 p01 p10 p11 : List α) : Option (List α) :=
  let aLo := (partitionInteger n).1
  let aHi := (partitionInteger n).2
  let bLo := (partitionInteger m).1
  let bHi := (partitionInteger m).2
  if p00.length ≠ aLo + bLo ∨ p01.length ≠ aLo + bHi ∨ p10.length ≠ aHi + bLo ∨ p11.length ≠ aHi + bHi then none
  else if ¬ (aLo ≥ bLo) ∨ ¬ (aHi ≤ aLo) ∨ ¬ (bHi ≤ bLo) then none
  else if aHi < bHi then none
  else
    -- running offsets into p00 (a_lo*b_lo), p01 (a_lo*b_hi), p10 (a_hi*b_lo), p11 (a_hi*b_hi)
    some (
      ((List.range bLo).map fun i => p00.getD (0 + i) dflt) ++
      ((List.range (aLo - bLo)).flatMap fun i => [p00.getD (bLo + i) dflt, p01.getD (0 + i) dflt]) ++
      ((List.range bLo).flatMap fun i =>
        [p00.getD (bLo + (aLo - bLo) + i) dflt, p10.getD (0 + i) dflt, p01.getD ((aLo - bLo) + i) dflt]) ++
      ((List.range bHi).flatMap fun i =>
        [p10.getD (bLo + i) dflt, p01.getD ((aLo - bLo) + bLo + i) dflt, p11.getD (0 + i) dflt]) ++
      ((List.range (aHi - bHi)).flatMap fun i => [p10.getD (bLo + bHi + i) dflt, p11.getD (bHi + i) dflt]) ++
      ((List.range bHi).map fun i => p11.getD (bHi + (aHi - bHi) + i) dflt))

/-- Carries and output of the reduction loop. -/
structure Red where
  outs : List BddFn
  c0 : BddFn
  c1 : BddFn
  c2 : BddFn

/-- mux_circuits/src/mul.rs:475-487, one iteration of section 2. -/
def sec2 (inOff : Nat) (st : Red) (i : Nat) : Red :=
  let a := var (inOff + 2 * i)
  let b := var (inOff + 2 * i + 1)
  let ops := [a, b, st.c0]
  { st with
    outs := st.outs ++ [xor (xor a b) st.c0]
    c0 := or (nBitsAreTrue ops 2) (nBitsAreTrue ops 3) }

/-- mux_circuits/src/mul.rs:496-521, one iteration of sections 3 and 4. -/
def sec34 (inOff : Nat) (st : Red) (i : Nat) : Red :=
  let a := var (inOff + 3 * i)
  let b := var (inOff + 3 * i + 1)
  let c := var (inOff + 3 * i + 2)
  let ops := [a, b, c, st.c0, st.c1]
  { outs := st.outs ++ [xor (xor (xor (xor a b) c) st.c0) st.c1]
    c0 := or (nBitsAreTrue ops 2) (nBitsAreTrue ops 3)
    c1 := st.c2
    c2 := or (nBitsAreTrue ops 4) (nBitsAreTrue ops 5) }

/-- mux_circuits/src/mul.rs:529-544, one iteration of section 5. -/
def sec5 (inOff : Nat) (st : Red) (i : Nat) : Red :=
  let a := var (inOff + 2 * i)
  let b := var (inOff + 2 * i + 1)
  let ops := [a, b, st.c0, st.c1]
  { outs := st.outs ++ [xor (xor (xor a b) st.c0) st.c1]
    c0 := or (nBitsAreTrue ops 2) (nBitsAreTrue ops 3)
    c1 := st.c2
    c2 := nBitsAreTrue ops 4 }

/-- mux_circuits/src/mul.rs:552-583, one iteration of section 6. -/
def sec6 (inOff : Nat) (st : Red) (i : Nat) : Red :=
  let a := var (inOff + i)
  if i = 0 then
    let ops := [a, st.c0, st.c1]
    { st with
      outs := st.outs ++ [xor (xor a st.c0) st.c1]
      c0 := or (nBitsAreTrue ops 2) (nBitsAreTrue ops 3)
      c1 := st.c2 }
  else if i = 1 then
    let ops := [a, st.c0, st.c1]
    { st with
      outs := st.outs ++ [xor (xor a st.c0) st.c1]
      c0 := or (nBitsAreTrue ops 2) (nBitsAreTrue ops 3) }
  else
    { st with
      outs := st.outs ++ [xor a st.c0]
      c0 := and a st.c0 }

/-- mux_circuits/src/mul.rs:428-589 `gradeschool_reduce_impl`; `none` = panic (`assert!(n >= m)`, an underflowing
subtraction, or more than `u16` variables). The Rust assigns `result[out_offset + i]`; the sections write
consecutive positions `0, 1, …, n+m-1`, which the model renders as appending. -/
def gradeschoolReduceImpl (n m : Nat) : Option (List BddFn) :=
  let aLo := (partitionInteger n).1
  let aHi := (partitionInteger n).2
  let bLo := (partitionInteger m).1
  let bHi := (partitionInteger m).2
  if ¬ (n ≥ m) then none
  else if 2 * (m + n) ≥ maxVars then none
  else if aLo < bLo ∨ aHi < bHi then none
  else
    let st : Red := ⟨(List.range bLo).map var, mkFalse, mkFalse, mkFalse⟩
    let off := bLo
    let st := (List.range (aLo - bLo)).foldl (sec2 off) st
    let off := off + 2 * (aLo - bLo)
    let st := (List.range (bLo + bHi)).foldl (sec34 off) st
    let off := off + 3 * (bLo + bHi)
    let st := (List.range (aHi - bHi)).foldl (sec5 off) st
    let off := off + 2 * (aHi - bHi)
    let st := (List.range bHi).foldl (sec6 off) st
    some st.outs

/-- Bit-level meaning of `FheCircuit::insert_mux_circuit` (parasol_runtime/src/fhe_circuit.rs:274-422, whose graph
construction is C13): the outputs of a generated circuit with `arity` inputs on the given input bits. `none` =
the generator or `assert_eq!(mux_circuit.inputs.len(), nodes_to_inputs.len())` panics. -/
def applyCircuit (c : Option (List BddFn)) (arity : Nat) (inputs : List Bool) : Option (List Bool) :=
  match c with
  | none => none
  | some outs =>
    if arity ≠ inputs.length then none
    else some (outs.map fun f => f fun i => inputs.getD i false)

/-- parasol_runtime/src/circuits/mul.rs:97: the longer operand (`a` after the swap). -/
def longer (a b : List Bool) : List Bool := if a.length < b.length then b else a
/-- parasol_runtime/src/circuits/mul.rs:97: the shorter operand (`b` after the swap). -/
def shorter (a b : List Bool) : List Bool := if a.length < b.length then a else b

/-- parasol_runtime/src/circuits/mul.rs:90-193 `mul_impl`, on the bits carried by the nodes (ciphertext conversions
preserve the bit, C15). `unsigned_multiplier` / `gradeschool_reduce` are modelled by their generators; for
(8,8), (16,16), (32,32) resp. (64,64) the Rust loads a file holding a pre-generated circuit. -/
def mulImpl (a₀ b₀ : List Bool) : Option (List Bool) :=
  let a := longer a₀ b₀
  let b := shorter a₀ b₀
  let aLoLen := (partitionInteger a.length).1
  let aHiLen := (partitionInteger a.length).2
  let bLoLen := (partitionInteger b.length).1
  let bHiLen := (partitionInteger b.length).2
  if aHiLen = 0 ∧ bHiLen = 0 then
    applyCircuit (multiplierImpl a.length b.length) (a.length + b.length) (a ++ b)
  else if bHiLen = 0 then
    if _hA : a.length ≤ circuitCutoff then none   -- unreachable: then `a_hi_len` is 0
    else
    match mulImpl (a.take aLoLen) (b.take bLoLen), mulImpl (a.drop aLoLen) (b.take bLoLen) with
    | some aLobLo, some aHibLo =>
      let lo := aLobLo.take aLoLen
      let hi := aLobLo.drop aLoLen
      let adderInputs := ((hi.zip (aHibLo.take aLoLen)).flatMap fun xy => [xy.1, xy.2]) ++ aHibLo.drop aLoLen
      match applyCircuit (Arith.rippleCarryAdder bLoLen (aHiLen + bLoLen) false) (bLoLen + (aHiLen + bLoLen))
          adderInputs with
      | none => none
      | some sumOut =>
        if lo.length + sumOut.length ≠ a.length + b.length then none else some (lo ++ sumOut)
    | _, _ => none
  else
    if _hA : a.length ≤ circuitCutoff ∨ b.length ≤ circuitCutoff then none   -- unreachable: `b_hi_len ≠ 0`
    else
    match mulImpl (a.take aLoLen) (b.take bLoLen), mulImpl (a.take aLoLen) (b.drop bLoLen),
        mulImpl (a.drop aLoLen) (b.take bLoLen), mulImpl (a.drop aLoLen) (b.drop bLoLen) with
    | some p00, some p01, some p10, some p11 =>
      match encodeGradeschoolReduction false a.length b.length p00 p01 p10 p11 with
      | none => none
      | some bits =>
        applyCircuit (gradeschoolReduceImpl a.length b.length) (2 * (b.length + a.length)) bits
    | _, _, _, _ => none
termination_by a₀.length + b₀.length
decreasing_by
  all_goals
    have hsum : a.length + b.length = a₀.length + b₀.length := by
      simp only [a, b, longer, shorter]; split <;> omega
    have h1 : aLoLen = (a.length + 1) / 2 := by
      simp only [aLoLen, partitionInteger]; rw [if_neg (by simp only [circuitCutoff] at *; omega)]
    simp only [circuitCutoff, List.length_take, List.length_drop] at *
    simp only [a, b, aLoLen] at *
    omega

/-- parasol_runtime/src/circuits/mul.rs:74-84 `append_uint_multiply`: low and high part of the result. -/
def appendUintMultiply (a b : List Bool) : Option (List Bool × List Bool) :=
  (mulImpl a b).map fun r => (r.take a.length, r.drop a.length)

/-- parasol_runtime/src/circuits/mul.rs:199-203 `neg`. -/
def negBits (a : List Bool) : Option (List Bool) := applyCircuit (Arith.negator a.length) a.length a

/-- parasol_runtime/src/circuits/mul.rs:209-242 `abs`: multiplex between the input and its negation on the top bit.
`input.last().unwrap()` panics on the empty input. -/
def absBits (a : List Bool) : Option (List Bool) :=
  match negBits a, a.getLast? with
  | some na, some sel => some (List.zipWith (fun f t => bif sel then t else f) a na)
  | _, _ => none

/-- parasol_runtime/src/circuits/mul.rs:18-71 `append_int_multiply`. -/
def appendIntMultiply (a b : List Bool) : Option (List Bool × List Bool) :=
  match absBits a, absBits b, a.getLast?, b.getLast? with
  | some absA, some absB, some s1, some s2 =>
    match mulImpl absA absB with
    | none => none
    | some pos =>
      match negBits pos with
      | none => none
      | some neg =>
        let r := List.zipWith (fun pos neg =>
          let cmux11 := bif s1 then neg else pos
          let cmux12 := bif s1 then pos else neg
          bif s2 then cmux12 else cmux11) pos neg
        some (r.take a.length, r.drop a.length)
  | _, _, _, _ => none

end Spf.Mul
