import Mathlib.Algebra.Order.Field.Rat
/-! Model of `sunscreen_math/src/stats.rs` and `sunscreen_math/src/geometry.rs`. Simplification: `f64` is replaced by
exact rational arithmetic (no rounding, no infinities, `0 / 0` is 0 instead of NaN; the theorems exclude it). -/
namespace Spf.Stats

/-- `RunningMeanVariance`, sunscreen_math/src/stats.rs:5-9. -/
structure Running where
  mean : ℚ
  variance : ℚ
  k : Nat
deriving DecidableEq, Repr

/-- `RunningMeanVariance::new`, sunscreen_math/src/stats.rs:15-21. -/
def new : Running := { mean := 0, variance := 0, k := 0 }

/-- `add_sample`, sunscreen_math/src/stats.rs:26-41. -/
def addSample (s : Running) (x : ℚ) : Running :=
  if s.k = 0 then { mean := x, variance := 0, k := s.k + 1 }
  else
    let k := s.k + 1
    let newMean := s.mean + (x - s.mean) / (k : ℚ)
    let newVariance := s.variance + (x - s.mean) * (x - newMean)
    { mean := newMean, variance := newVariance, k }

/-- `mean`, sunscreen_math/src/stats.rs:46-48. -/
def mean (s : Running) : ℚ := s.mean

/-- `variance`, sunscreen_math/src/stats.rs:53-55. -/
def variance (s : Running) : ℚ := s.variance / (s.k : ℚ)

/-- The samples of a caller, added one after the other. -/
def addAll (s : Running) : List ℚ → Running
  | [] => s
  | x :: xs => addAll (addSample s x) xs

/-- `Point2D`, sunscreen_math/src/geometry.rs:3-6. -/
structure Point where
  x : ℚ
  y : ℚ
deriving DecidableEq, Repr

/-- `HalfSpace2D`, sunscreen_math/src/geometry.rs:28-31. -/
structure Half where
  a : ℚ × ℚ
  b : ℚ
deriving DecidableEq, Repr

/-- `HalfSpace2D::inside`, sunscreen_math/src/geometry.rs:40-42. -/
def Half.inside (h : Half) (p : Point) : Bool := decide (h.a.1 * p.x + h.a.2 * p.y ≤ h.b)

/-- `ConvexPolytope2D::inside`, sunscreen_math/src/geometry.rs:61-65. -/
def polyInside (hs : List Half) (p : Point) : Bool := hs.all (fun h => h.inside p)

/-- `ConvexPolytope2D::violations`, sunscreen_math/src/geometry.rs:68-79. -/
def violations (hs : List Half) (p : Point) : List Half :=
  hs.filterMap (fun h => if h.inside p then none else some h)

end Spf.Stats
