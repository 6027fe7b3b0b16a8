import Verif.Model.Bdd
/-! Model of the array multiplier of `mux_circuits/src/mul.rs` (lines 25-225). -/
namespace Spf.Mul
open BddFn

/-- mux_circuits/src/mul.rs:161-177: the `loop { … if r >= m || c >= n { break } … }` on diagonal `d`;
returns the cells `(r, n - c - 1)` visited, i.e. (index into y, index into x). `m + n` bounds the loop. -/
def encodeDiag (n m d : Nat) : List (Nat × Nat) :=
  let row := if d > n then d - n else 0
  let col := if d > n then 0 else n - d
  ((List.range (m + n)).takeWhile fun i => !(decide (row + i ≥ m) || decide (col + i ≥ n))).map
    fun i => (row + i, n - (col + i) - 1)

/-- mux_circuits/src/mul.rs:150-180 `mul_bdd_encode`: `none` = the `assert_ne!` panics. Diagonals
`d = n+m-1, …, 1`. -/
def mulBddEncode {α} (x y : List α) (dflt : α) : Option (List α) :=
  if x.length = 0 then none
  else if y.length = 0 then none
  else
    let n := x.length
    let m := y.length
    some ((List.range (n + m - 1)).reverse.flatMap fun d =>
      (encodeDiag n m (d + 1)).flatMap fun rc => [x.getD rc.2 dflt, y.getD rc.1 dflt])

/-- mux_circuits/src/mul.rs:192-225: starting cells of the diagonals that begin in row 0. -/
def decodeCols : Nat → List (Nat × Nat)
  | c + 1 => (0, c + 1) :: decodeCols c
  | 0 => [(0, 0)]

/-- mux_circuits/src/mul.rs:192-222: the sequence of `(start_row, start_col)` of the outer loop. -/
def decodeStarts : Nat → Nat → List (Nat × Nat)
  | r + 1, c => (r + 1, c) :: decodeStarts r c
  | 0, c => decodeCols c

/-- mux_circuits/src/mul.rs:199-213: inner loop: cells `(r, c)` written, in order. `m + n` bounds the loop. -/
def decodeDiag (n m : Nat) (s : Nat × Nat) : List (Nat × Nat) :=
  ((List.range (m + n)).takeWhile fun j => !(decide (j > s.2) || decide (s.1 + j ≥ m))).map
    fun j => (s.1 + j, s.2 - j)

/-- mux_circuits/src/mul.rs:208-211: the loop writes `x[idx(r,c)] = encoded[i]`, `y[idx(r,c)] = encoded[i+1]`,
`i += 2` over the visited cells; matrices are functions of `(row, col)`. -/
def decodeFill {α} : List (Nat × Nat) → List α → (Nat → Nat → α) × (Nat → Nat → α) →
    (Nat → Nat → α) × (Nat → Nat → α)
  | rc :: cells, ex :: ey :: enc, (x, y) =>
    decodeFill cells enc
      (fun r c => if r = rc.1 ∧ c = rc.2 then ex else x r c,
       fun r c => if r = rc.1 ∧ c = rc.2 then ey else y r c)
  | _, _, xy => xy

/-- mux_circuits/src/mul.rs:184-225 `mul_bdd_decode`, returning the `m × n` matrices as functions of (row, col). -/
def mulBddDecode {α} (encoded : List α) (n m : Nat) (dflt : α) : Option ((Nat → Nat → α) × (Nat → Nat → α)) :=
  if encoded.length ≠ 2 * m * n then none
  else if m = 0 ∨ n = 0 then none     -- `encoded[0]` / `m - 1` panic
  else
    let cells := (decodeStarts (m - 1) (n - 1)).flatMap (decodeDiag n m)
    let d := encoded.headD dflt
    some (decodeFill cells encoded (fun _ _ => d, fun _ _ => d))

/-- mux_circuits/src/mul.rs:102-126, one cell of a row. State: (sums of this row so far, carry of the previous
column). -/
def cellStep (n : Nat) (ands : Nat → BddFn) (prev : List BddFn) (prevCarry : BddFn)
    (st : List BddFn × BddFn) (j : Nat) : List BddFn × BddFn :=
  let a := ands j
  let b := if j < n - 1 then prev.getD (j + 1) mkFalse else prevCarry
  let cIn := st.2     -- `false` in column 0 (lines 117-121)
  let aXorB := xor a b
  (st.1 ++ [xor aXorB cIn], or (and aXorB cIn) (and b a))

/-- mux_circuits/src/mul.rs:101-127, row `i ≥ 1`: (sums of the row, carry out of its last column). -/
def row (n : Nat) (ands : Nat → BddFn) (prev : List BddFn × BddFn) : List BddFn × BddFn :=
  (List.range n).foldl (cellStep n ands prev.1 prev.2) ([], mkFalse)

/-- All rows `0 … k` (mux_circuits/src/mul.rs:97-127): row 0 is `ands[0]` with carry `false`. The Rust stores the
rows in `m × n` matrices `sums` and `carries` but only reads the previous row. -/
def rows (n : Nat) (ands : Nat → Nat → BddFn) : Nat → List (List BddFn × BddFn)
  | 0 => [((List.range n).map (ands 0), mkFalse)]
  | k + 1 =>
    let rs := rows n ands k
    rs ++ [row n (ands (k + 1)) (rs.getLastD ([], mkFalse))]

/-- mux_circuits/src/mul.rs:76-142 `multiplier_bdd` on variables `0 … 2nm-1`. -/
def multiplierBdd (n m : Nat) : Option (List BddFn) :=
  if 2 * n * m ≥ maxVars then none   -- `as u16` truncation, then `assert_eq!` in mul_bdd_decode fails
  else
    match mulBddDecode ((List.range (2 * n * m)).map var) n m mkFalse with
    | none => none
    | some (x, y) =>
      let ands := fun i j => and (x i j) (y i j)
      let rs := rows n ands (m - 1)
      let last := rs.getLastD ([], mkFalse)
      some (rs.map (fun r => r.1.headD mkFalse) ++ last.1.tail ++ [last.2])

/-- mux_circuits/src/mul.rs:30-59 `multiplier_impl`: the inputs of `multiplier_bdd` are remapped to the `n + m`
operand bits (`x` first, then `y`). `remap_inputs` and `optimize` act on the multiplexer graph (see C11, C12);
here the renaming is applied to the Boolean functions. -/
def multiplierImpl (n m : Nat) : Option (List BddFn) :=
  if n = 0 then none
  else if m = 0 then none
  else if m + n ≥ 65536 then none
  else
    match multiplierBdd n m, mulBddEncode (List.range n) ((List.range m).map (n + ·)) 0 with
    | some outs, some enc => some (outs.map fun f => fun w => f fun k => w (enc.getD k 0))
    | _, _ => none

end Spf.Mul
