import Verif.Spec.Noise
/-! Specification vocabulary: what a caller's map from torus elements to a polynomial must satisfy to be applied
homomorphically. -/
namespace Spf.Spec

/-- `f` takes `p` torus elements to a polynomial of `N` coefficients, respects addition, and moves every coefficient by at most
`R` times as much as the largest change of its arguments. -/
structure Morphism {W : Nat} (N p R : Nat) (f : List (BitVec W) → Option (List (BitVec W))) : Prop where
  total : ∀ x, x.length = p → ∃ y, f x = some y ∧ y.length = N
  add : ∀ x x' y y', x.length = p → x'.length = p → f x = some y → f x' = some y' →
    f (List.zipWith (· + ·) x x') = some (List.zipWith (· + ·) y y')
  lipschitz : ∀ B x x' y y', x.length = p → List.Forall₂ (Near B) x x' → f x = some y → f x' = some y' → NearPoly (R * B) y y'

/-- A map that is given the polynomial to write to, and gives the same result whatever the polynomial holds. -/
def Overwrites {W : Nat} (N p : Nat) (f : List (BitVec W) → List (BitVec W) → Option (List (BitVec W))) : Prop :=
  ∀ poly xs, poly.length = N → xs.length = p → f poly xs = f (List.replicate N 0) xs

/-- A map that is given the polynomial to write to, and gives the same result on the zero polynomial and on one that it wrote
itself, starting from the zero polynomial. -/
def Rewrites {W : Nat} (N p : Nat) (f : List (BitVec W) → List (BitVec W) → Option (List (BitVec W))) : Prop :=
  ∀ xs ys q, xs.length = p → ys.length = p → f (List.replicate N 0) xs = some q → f q ys = f (List.replicate N 0) ys

end Spf.Spec
