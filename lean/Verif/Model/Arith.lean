import Verif.Model.Bdd
/-!
Model of the arithmetic / bitwise / comparison circuit generators of `mux_circuits/src`.

Every generator returns `none` where the Rust panics (`assert!`), otherwise the list of decision diagrams, one
per output bit, that is handed to `MuxCircuit::from`.  The Rust preallocates the output vector and assigns
`out[i]` for `i = 0, 1, …`; the model appends, which gives the same vector.
-/
namespace Spf.Arith
open BddFn

/-- mux_circuits/src/add.rs:37-45, one iteration: full adder on `vars[cin_offset+2i]`, `vars[cin_offset+2i+1]`. -/
def addStep (off : Nat) (st : List BddFn × BddFn) (i : Nat) : List BddFn × BddFn :=
  let a := var (off + 2 * i)
  let b := var (off + 2 * i + 1)
  let aXorB := xor a b
  (st.1 ++ [xor st.2 aXorB], or (and aXorB st.2) (and a b))

/-- mux_circuits/src/add.rs:47-51, one iteration: half adder on a left-over bit of the longer operand. -/
def addTailStep (off minLen : Nat) (st : List BddFn × BddFn) (i : Nat) : List BddFn × BddFn :=
  let a := var (2 * minLen + i + off)
  (st.1 ++ [xor st.2 a], and a st.2)

/-- mux_circuits/src/add.rs:13-56 `ripple_carry_adder`. -/
def rippleCarryAdder (n m : Nat) (cin : Bool) : Option (List BddFn) :=
  if m = 0 then none
  else if n = 0 then none
  else
    let minLen := min m n
    let maxLen := max m n
    let off := if cin then 1 else 0
    if m + n + off ≥ maxVars then none
    else
      let carry := if cin then var 0 else mkFalse
      let st := (List.range minLen).foldl (addStep off) ([], carry)
      let st := (List.range (maxLen - minLen)).foldl (addTailStep off minLen) st
      some (st.1 ++ [st.2])

/-- mux_circuits/src/sub.rs:35-43, one iteration of the subtractor. -/
def subStep (off : Nat) (st : List BddFn × BddFn) (i : Nat) : List BddFn × BddFn :=
  let a := var (off + 2 * i)
  let b := var (off + 2 * i + 1)
  let aXorB := xor a b
  (st.1 ++ [xor st.2 aXorB], or (andNot st.2 aXorB) (andNot b a))

/-- mux_circuits/src/sub.rs:12-48 `full_subtractor`. -/
def fullSubtractor (n : Nat) (bin : Bool) : Option (List BddFn) :=
  if n = 0 then none
  else
    let off := if bin then 1 else 0
    if 2 * n + off ≥ maxVars then none
    else
      let borrow := if bin then var 0 else mkFalse
      let st := (List.range n).foldl (subStep off) ([], borrow)
      some (st.1 ++ [st.2])

/-- mux_circuits/src/neg.rs:22-25, one iteration of the negator. -/
def negStep (st : List BddFn × BddFn) (i : Nat) : List BddFn × BddFn :=
  (st.1 ++ [xor st.2 (var i)], or st.2 (var i))

/-- mux_circuits/src/neg.rs:7-28 `negator`. -/
def negator (n : Nat) : Option (List BddFn) :=
  if n = 0 then none
  else if n ≥ maxVars then none
  else some ((List.range n).foldl negStep ([], mkFalse)).1

/-- mux_circuits/src/and.rs:6-23 `make_and_circuit` (before `optimize`, see C12). `2 * inputs` is `u16`
arithmetic: overflow panics in debug builds. -/
def makeAndCircuit (inputs : Nat) : Option (List BddFn) :=
  if 2 * inputs ≥ maxVars then none
  else some ((List.range inputs).map fun i => and (var (2 * i)) (var (2 * i + 1)))

/-- mux_circuits/src/or.rs:6-23 `make_or_circuit`. -/
def makeOrCircuit (inputs : Nat) : Option (List BddFn) :=
  if 2 * inputs ≥ maxVars then none
  else some ((List.range inputs).map fun i => or (var (2 * i)) (var (2 * i + 1)))

/-- mux_circuits/src/comparisons.rs:5-7 `equal`. -/
def equal (a b : BddFn) : BddFn := not (xor a b)
/-- mux_circuits/src/comparisons.rs:9-11 `greater_than`. -/
def greaterThan (a b : BddFn) : BddFn := andNot a b
/-- mux_circuits/src/comparisons.rs:13-15 `less_than`. -/
def lessThan (a b : BddFn) : BddFn := andNot b a

/-- The loop of mux_circuits/src/comparisons.rs:31-39 (and 58-66). -/
def equalLoop (n : Nat) : BddFn :=
  (List.range n).foldl (fun r i => and r (equal (var (2 * i)) (var (2 * i + 1)))) mkTrue

/-- mux_circuits/src/comparisons.rs:19-42 `compare_equal`. -/
def compareEqual (n : Nat) : Option (List BddFn) :=
  if n = 0 then none
  else if 2 * n ≥ maxVars then none
  else some [equalLoop n]

/-- mux_circuits/src/comparisons.rs:46-70 `compare_not_equal`. -/
def compareNotEqual (n : Nat) : Option (List BddFn) :=
  if n = 0 then none
  else if 2 * n ≥ maxVars then none
  else some [not (equalLoop n)]

/-- mux_circuits/src/comparisons.rs:162-177, one iteration (`i` runs downwards). State: `(result, a_and_b_cumprod)`. -/
def cmpStep (greater : Bool) (st : BddFn × BddFn) (i : Nat) : BddFn × BddFn :=
  let a := var (2 * i)
  let b := var (2 * i + 1)
  let aCmpB := if greater then greaterThan a b else lessThan a b
  (or st.1 (and aCmpB st.2), and st.2 (equal a b))

/-- mux_circuits/src/comparisons.rs:144-184 `unsigned_comparison_impl` on `vars[..varsLen]`. -/
def unsignedComparisonImpl (varsLen : Nat) (greater orEqual : Bool) : BddFn :=
  let st := (List.range (varsLen / 2)).reverse.foldl (cmpStep greater) (mkFalse, mkTrue)
  if orEqual then or st.1 st.2 else st.1

/-- mux_circuits/src/comparisons.rs:127-142 `compare_or_maybe_equal`. -/
def compareOrMaybeEqual (n : Nat) (greater orEqual : Bool) : Option (List BddFn) :=
  if n = 0 then none
  else if 2 * n ≥ maxVars then none
  else some [unsignedComparisonImpl (2 * n) greater orEqual]

/-- mux_circuits/src/comparisons.rs:79-118 `compare_or_maybe_equal_signed`. -/
def compareOrMaybeEqualSigned (n : Nat) (greater orEqual : Bool) : Option (List BddFn) :=
  if n = 0 then none
  else if 2 * n ≥ maxVars then none
  else
    let a := var (2 * n - 2)
    let b := var (2 * n - 1)
    let forceTrue := if greater then lessThan a b else greaterThan a b
    let forceFalse := if greater then greaterThan a b else lessThan a b
    let result := unsignedComparisonImpl (2 * n - 2) greater orEqual
    some [andNot (or result forceTrue) forceFalse]

end Spf.Arith
