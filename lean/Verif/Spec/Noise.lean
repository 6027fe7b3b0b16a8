import Mathlib.Data.BitVec
/-! Specification vocabulary for noise: torus elements (`BitVec W`, arithmetic modulo `2^W`) that differ by at most `B`. -/
namespace Spf.Spec

/-- `x = y + e` modulo `2^W` for an integer `e` with `|e| ≤ B`. -/
def Near {W : Nat} (B : Nat) (x y : BitVec W) : Prop := ∃ e : Int, e.natAbs ≤ B ∧ x = y + BitVec.ofInt W e

/-- Coefficient by coefficient, two polynomials differ by at most `B`. -/
def NearPoly {W : Nat} (B : Nat) (p q : List (BitVec W)) : Prop := List.Forall₂ (Near B) p q

end Spf.Spec
