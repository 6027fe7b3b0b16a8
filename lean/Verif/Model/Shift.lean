import Verif.Model.Bdd
/-! Model of `mux_circuits/src/bitshift.rs`. -/
namespace Spf.Shift
open BddFn

/-- mux_circuits/src/bitshift.rs:18-24 `ShiftDirection`. -/
inductive Dir | left | right
  deriving DecidableEq, Repr

/-- mux_circuits/src/bitshift.rs:28-37 `ShiftMode`. -/
inductive Mode | logical | rotation | arithmetic
  deriving DecidableEq, Repr

/-- `is_power_of_two` on unsigned integers. -/
def isPow2 (x : Nat) : Bool := x != 0 && 2 ^ Nat.log2 x == x

/-- mux_circuits/src/bitshift.rs:6-14 `ilog2_rounded_up`. -/
def ilog2RoundedUp (x : Nat) : Nat :=
  if x = 0 then 0 else if isPow2 x then Nat.log2 x else Nat.log2 x + 1

/-- mux_circuits/src/bitshift.rs:50-55: number of shift bits that select a layer. -/
def usedShiftBits (inputs : Nat) : Nat :=
  let u := ilog2RoundedUp inputs
  if u = 0 then 1 else u

/-- `slice::rotate_left(k)` for `k ≤ len` (mux_circuits/src/bitshift.rs:99). -/
def rotL {α} (k : Nat) (l : List α) : List α := l.drop k ++ l.take k
/-- `slice::rotate_right(k)` for `k ≤ len` (mux_circuits/src/bitshift.rs:102). -/
def rotR {α} (k : Nat) (l : List α) : List α := rotL (l.length - k) l

/-- mux_circuits/src/bitshift.rs:89-134, one layer of the barrel shifter: `shift = 1 << shift_log`, `select` its
selector, `result` the current vector (MSB first). The inner loop (106-133) only reads `intermediate` (a copy)
and the not yet overwritten `result[input_index]`, hence the map over indices. -/
def layer (inputs : Nat) (dir : Dir) (mode : Mode) (oldMsb : BddFn) (shift : Nat) (select : BddFn)
    (result : List BddFn) : List BddFn :=
  let intermediate := match dir with
    | .left => rotL (shift % inputs) result
    | .right => rotR (shift % inputs) result
  (List.range inputs).map fun idx =>
    let notShifted := result.getD idx mkFalse
    let moved := intermediate.getD idx mkFalse
    let shifted := match mode with
      | .logical =>
        let zeroFill := match dir with
          | .left => decide (idx ≥ inputs - shift)
          | .right => decide (idx < shift)
        if zeroFill then mkFalse else moved
      | .rotation => moved
      | .arithmetic => if idx < shift then oldMsb else moved
    BddFn.ite select shifted notShifted

/-- mux_circuits/src/bitshift.rs:49-159 `bitshift` (before `optimize`, see C12). `none` = panic. -/
def bitshift (inputs shiftSize : Nat) (dir : Dir) (mode : Mode) : Option (List BddFn) :=
  let used := usedShiftBits inputs
  if shiftSize < used then none                                       -- 57-60
  else if mode = .rotation ∧ isPow2 inputs = false then none          -- 64-66
  else if mode = .arithmetic ∧ dir = .left then none                  -- 68-70
  else if inputs + shiftSize ≥ maxVars then none                      -- 72 (u16 overflow)
  else if inputs = 0 then none                                        -- 86 (result[0])
  else
    let excess := (List.range (shiftSize - used)).map fun x => var (inputs + x)
    let usedVar := fun i => var (inputs + (shiftSize - used + i))
    let result := (List.range inputs).map var
    let oldMsb := var 0
    -- 89: `(0..used).rev().enumerate()`: at position i, shift_log = used - 1 - i
    let result := (List.range used).foldl
      (fun res i => layer inputs dir mode oldMsb (2 ^ (used - 1 - i)) (usedVar i) res) result
    if mode ≠ .rotation then                                          -- 138-153
      let clear := excess.foldl BddFn.or mkFalse
      let fill := if mode = .logical then mkFalse else oldMsb
      some (result.map fun res => BddFn.ite clear fill res)
    else some result

end Spf.Shift
