import Mathlib.Data.BitVec
/-! Specification vocabulary for the torus / radix / modulus switching properties. -/
namespace Spf.Spec

/-- The integer written by signed digits in base `2^l`, least significant digit first. -/
def digitValue (l : Nat) : List Int → Int
  | [] => 0
  | d :: ds => d + 2 ^ l * digitValue l ds

end Spf.Spec
