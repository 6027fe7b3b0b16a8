import Mathlib.RingTheory.AdjoinRoot
/-! Specification: the negacyclic ring `R[X]/(X^N + 1)` (Mathlib's `AdjoinRoot`), and the class in it of the polynomial
whose coefficients are listed, constant coefficient first. -/
namespace Spf.Spec
open Polynomial

/-- The polynomial with the given coefficients, constant coefficient first. -/
noncomputable def toPoly {R : Type} [CommRing R] : List R → R[X]
  | [] => 0
  | a :: l => C a + X * toPoly l

/-- `R[X]/(X^N + 1)`. -/
abbrev Nega (R : Type) [CommRing R] (N : Nat) : Type := AdjoinRoot (X ^ N + 1 : R[X])

/-- The class of a coefficient list in `R[X]/(X^N + 1)`. -/
noncomputable def cls {R : Type} [CommRing R] (N : Nat) (l : List R) : Nega R N := AdjoinRoot.mk _ (toPoly l)

/-- The class of `X`. -/
noncomputable def xcls {R : Type} [CommRing R] (N : Nat) : Nega R N := AdjoinRoot.root _

end Spf.Spec
