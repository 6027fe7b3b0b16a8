/-!
Specification vocabulary for bit vectors.  Nothing here depends on the model.
-/
namespace Spf.Spec

/-- Bit as a number. -/
def bit (b : Bool) : Nat := if b then 1 else 0

/-- Value of a list of bits, least-significant bit first. -/
def valLE : List Bool → Nat
  | [] => 0
  | b :: bs => bit b + 2 * valLE bs

/-- Value of a list of bits, most-significant bit first. -/
def valBE (l : List Bool) : Nat := valLE l.reverse

/-- Two's complement value of a list of bits, least-significant bit first (the last bit is the sign bit;
the empty list has value 0). -/
def valSigned (l : List Bool) : Int :=
  (valLE l : Int) - (if l.getLastD false then (2 : Int) ^ l.length else 0)

/-- Interleave two operands; when one is exhausted the rest of the other follows.
This is the input layout the circuits document ("a and b are interleaved until the bits of the shorter
value are exhausted; the remaining bits are those in the longer value"). -/
def interleave : List Bool → List Bool → List Bool
  | x :: xs, y :: ys => x :: y :: interleave xs ys
  | [], ys => ys
  | xs, [] => xs

/-- Wire assignment given by a list of input bits. -/
def wires (l : List Bool) : Nat → Bool := fun i => l.getD i false

end Spf.Spec
