import Mathlib.Algebra.Ring.Defs
/-! Model of the polynomial type of `sunscreen_math/src/poly/mod.rs`. A polynomial is its coefficient vector, index `i`
holding the coefficient of `x^i`, possibly with zeros at the end. The trait `Ring` of the coefficients is a Mathlib
commutative ring with decidable equality (C68 proves the laws for `Zq`). `none` is a panic: an index out of range, or
the explicit panic of `vartime_degree`. -/
namespace Spf.RingPoly
variable {R : Type} [CommRing R] [DecidableEq R]

/-- `Polynomial::vartime_is_zero`, sunscreen_math/src/poly/mod.rs:286-288. -/
def isZero (l : List R) : Bool := l.all fun c => decide (c = 0)

/-- The loop of `vartime_degree`, sunscreen_math/src/poly/mod.rs:88-92: the coefficients from the last, `i` of them
already seen, `len` in all. -/
def degreeLoop (len : Nat) : List R → Nat → Option Nat
  | [], _ => none
  | c :: rest, i => if c ≠ 0 then some (len - i - 1) else degreeLoop len rest (i + 1)

/-- `Polynomial::vartime_degree`, sunscreen_math/src/poly/mod.rs:87-95. -/
def degree (l : List R) : Option Nat := degreeLoop l.length l.reverse 0

/-- The comparison loop of `eq`, sunscreen_math/src/poly/mod.rs:47-53, over the indexes still to be visited. -/
def eqLoop (a b : List R) : List Nat → Option Bool
  | [] => some true
  | i :: is => do
    let x ← a[i]?
    let y ← b[i]?
    if x ≠ y then some false else eqLoop a b is

/-- `PartialEq::eq` of `Polynomial`, sunscreen_math/src/poly/mod.rs:31-54. -/
def polyEq (a b : List R) : Option Bool :=
  if isZero a || isZero b then some (isZero a && isZero b)
  else do
    let da ← degree a
    let db ← degree b
    if da ≠ db then some false else eqLoop a b (List.range da)

/-- `Polynomial::evaluate`, sunscreen_math/src/poly/mod.rs:69-79. -/
def evaluate (l : List R) (x : R) : R :=
  (l.foldl (fun (s : R × R) i => (s.1 + i * s.2, s.2 * x)) (0, 1)).1

/-- `Add`, sunscreen_math/src/poly/mod.rs:184-197. -/
def add (a b : List R) : List R := (List.range (max a.length b.length)).map fun i => a.getD i 0 + b.getD i 0

/-- `Sub`, sunscreen_math/src/poly/mod.rs:207-220. -/
def sub (a b : List R) : List R := (List.range (max a.length b.length)).map fun i => a.getD i 0 - b.getD i 0

/-- The loops of `Mul`, sunscreen_math/src/poly/mod.rs:238-245, over the pairs `(i, j)` still to be visited. -/
def mulLoop (a b : List R) : List (Nat × Nat) → List R → Option (List R)
  | [], out => some out
  | (i, j) :: ps, out => do
    let o ← out[i + j]?
    mulLoop a b ps (out.set (i + j) (a.getD i 0 * b.getD j 0 + o))

/-- The pairs visited by the two nested loops, sunscreen_math/src/poly/mod.rs:238-239. -/
def pairs (n m : Nat) : List (Nat × Nat) := (List.range n).flatMap fun i => (List.range m).map fun j => (i, j)

/-- `Mul`, sunscreen_math/src/poly/mod.rs:230-248. -/
def mul (a b : List R) : Option (List R) :=
  if a.isEmpty || b.isEmpty then some []
  else mulLoop a b (pairs a.length b.length) (List.replicate ((a.length - 1) + (b.length - 1) + 1) 0)

/-- `Mul<&T>`, sunscreen_math/src/poly/mod.rs:258-266. -/
def smul (a : List R) (c : R) : List R := a.map fun x => x * c

/-- `Neg`, sunscreen_math/src/poly/mod.rs:309-313. -/
def neg (a : List R) : List R := a.map fun x => -x

/-- The inner loop of the division, sunscreen_math/src/poly/mod.rs:144-150, over the values of `j` still to be
visited; `top` is `lhs_degree - i`. The subtractions of `usize` panic below zero. -/
def divInner (rhs : List R) (scale : R) (top rdeg : Nat) : List Nat → List R → Option (List R)
  | [], rem => some rem
  | j :: js, rem =>
    if top < j ∨ rdeg < j then none
    else do
      let r ← rem[top - j]?
      let d ← rhs[rdeg - j]?
      divInner rhs scale top rdeg js (rem.set (top - j) (r - d * scale))

/-- The outer loop of the division, sunscreen_math/src/poly/mod.rs:138-153, over the values of `i` still to be
visited. -/
def divLoop (rhs : List R) (ldeg rdeg iters : Nat) : List Nat → List R → List R → Option (List R × List R)
  | [], q, rem => some (q, rem)
  | i :: is, q, rem =>
    if ldeg < i ∨ iters < i + 1 then none
    else do
      let scale ← rem[ldeg - i]?
      let rem ← divInner rhs scale (ldeg - i) rdeg (List.range (rdeg + 1)) rem
      if iters - i - 1 < q.length then divLoop rhs ldeg rdeg iters is (q.set (iters - i - 1) scale) rem else none

/-- `Polynomial::vartime_div_rem_restricted_rhs`, sunscreen_math/src/poly/mod.rs:116-156. -/
def divRem (a b : List R) : Option (List R × List R) :=
  if isZero a then some ([], [])
  else do
    let ldeg ← degree a
    let rdeg ← degree b
    if ldeg < rdeg then some ([], a)
    else
      let iters := ldeg - rdeg + 1
      divLoop b ldeg rdeg iters (List.range iters) (List.replicate iters 0) a

end Spf.RingPoly
