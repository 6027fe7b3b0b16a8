import Mathlib.Algebra.Ring.Defs
/-! Model of the polynomial operations of `sunscreen_tfhe`. A polynomial is the list of its coefficients
(`PolynomialRef::data`), constant coefficient first. All coefficient arithmetic in the code wraps modulo the machine word
(torus.rs:341-392, `Wrapping`), so the model is written over an arbitrary commutative ring `R`; the instances used by the
code are `R = BitVec 32` and `R = BitVec 64`. `none` = panic. -/
namespace Spf.Tfhe
variable {R : Type} [CommRing R]

/-- `slice::rotate_left` (std; used at sunscreen_tfhe/src/entities/polynomial.rs:192). -/
def rotL {α : Type} (l : List α) (s : Nat) : List α := l.drop s ++ l.take s

/-- `slice::rotate_right` (std; used at sunscreen_tfhe/src/entities/polynomial.rs:229). -/
def rotR {α : Type} (l : List α) (s : Nat) : List α := l.drop (l.length - s) ++ l.take (l.length - s)

/-- The loop `for i in negate_segment` (entities/polynomial.rs:200-202, 233-235) over `lo..hi`. -/
def negateRange (l : List R) (lo hi : Nat) : List R := l.mapIdx fun i x => if lo ≤ i ∧ i < hi then -x else x

/-- sunscreen_tfhe/src/entities/polynomial.rs:171-203 `mul_by_negative_monomial_negacyclic`. An empty polynomial panics
(remainder by zero). -/
def mulByNegMonomial (p : List R) (degree : Nat) : Option (List R) :=
  let len := p.length
  if len = 0 then none else
  let degree := degree % (2 * len)
  if degree = 0 then some p else
  if degree = len then some (p.map fun x => -x) else
  let shift := degree % len
  let p := rotL p shift
  some (if degree < len then negateRange p (len - shift) len else negateRange p 0 (len - shift))

/-- sunscreen_tfhe/src/entities/polynomial.rs:208-236 `mul_by_positive_monomial_negacyclic`. -/
def mulByPosMonomial (p : List R) (degree : Nat) : Option (List R) :=
  let len := p.length
  if len = 0 then none else
  let degree := degree % (2 * len)
  if degree = 0 then some p else
  if degree = len then some (p.map fun x => -x) else
  let shift := degree % len
  let p := rotR p shift
  some (if degree < len then negateRange p 0 degree else negateRange p shift len)

/-- sunscreen_tfhe/src/entities/polynomial.rs:242-248 `mul_by_monomial_negacyclic`. -/
def mulByMonomial (p : List R) (degree : Int) : Option (List R) :=
  if degree < 0 then mulByNegMonomial p degree.natAbs else mulByPosMonomial p degree.natAbs

/-- `usize::is_power_of_two` (std). -/
def isPow2 (n : Nat) : Bool := decide (n ≠ 0) && decide (n &&& (n - 1) = 0)

/-- sunscreen_tfhe/src/math/polynomial.rs:186-194, the body of the inner loop. -/
def madStep (len : Nat) (i : Nat) (l : R) (c : List R) (j : Nat) (r : R) : List R :=
  if i + j ≥ len then c.modify ((i + j) &&& (len - 1)) (fun x => x - l * r) else c.modify (i + j) (fun x => x + l * r)

/-- sunscreen_tfhe/src/math/polynomial.rs:185-195, the inner loop; `j` is the index of the head of `b`. -/
def madInner (len i : Nat) (l : R) : List R → Nat → List R → List R
  | [], _, c => c
  | r :: b, j, c => madInner len i l b (j + 1) (madStep len i l c j r)

/-- sunscreen_tfhe/src/math/polynomial.rs:184-196, the outer loop; `i` is the index of the head of `a`. -/
def madOuter (len : Nat) (b : List R) : List R → Nat → List R → List R
  | [], _, c => c
  | l :: a, i, c => madOuter len b a (i + 1) (madInner len i l b 0 c)

/-- sunscreen_tfhe/src/math/polynomial.rs:159-197 `polynomial_mad_impl` (behind `polynomial_external_mad`, `polynomial_mad`,
`polynomial_mad_by_wrap`): `c += a * b`. The unused conversion of `a` to `f64` (lines 179-182) is left out. -/
def polyMad (c a b : List R) : Option (List R) :=
  if isPow2 a.length ∧ a.length = b.length ∧ a.length = c.length then some (madOuter a.length b a 0 c) else none

/-- sunscreen_tfhe/src/math/polynomial.rs:73-82, 101-110 `polynomial_add`, `polynomial_sub` (over
simd/scalar.rs `vector_add`, `vector_sub`), with the assertion that the lengths agree. -/
def polyAdd (a b : List R) : Option (List R) := if a.length = b.length then some (List.zipWith (· + ·) a b) else none
/-- sunscreen_tfhe/src/math/polynomial.rs:101-110 `polynomial_sub`. -/
def polySub (a b : List R) : Option (List R) := if a.length = b.length then some (List.zipWith (· - ·) a b) else none

/-- sunscreen_tfhe/src/math/polynomial.rs:86-98 `polynomial_add_assign` (and 19-31 `polynomial_sub_assign`): `zip` stops at
the shorter operand, the rest of `lhs` is unchanged. -/
def zipAssign {α β : Type} (f : α → β → α) : List α → List β → List α
  | a :: as, b :: bs => f a b :: zipAssign f as bs
  | as, _ => as

/-- sunscreen_tfhe/src/math/polynomial.rs:86-98. -/
def polyAddAssign (lhs rhs : List R) : List R := zipAssign (· + ·) lhs rhs
/-- sunscreen_tfhe/src/math/polynomial.rs:19-31. -/
def polySubAssign (lhs rhs : List R) : List R := zipAssign (· - ·) lhs rhs
/-- sunscreen_tfhe/src/math/polynomial.rs:35-42 `polynomial_negate`. -/
def polyNegate (c : List R) : List R := c.map fun x => -x
/-- sunscreen_tfhe/src/math/polynomial.rs:45-52 `polynomial_scalar_mul`. -/
def polyScalarMul (c a : List R) (s : R) : List R := zipAssign (fun _ a => a * s) c a
/-- sunscreen_tfhe/src/math/polynomial.rs:55-70 `polynomial_scalar_mad`, `polynomial_small_scalar_mad`. -/
def polyScalarMad (c a : List R) (s : R) : List R := zipAssign (fun c a => c + a * s) c a

/-- sunscreen_tfhe/src/ops/polynomial/mod.rs:74-86, the loop of `polynomial_pow_k` from index `i`; the tail of `p` is
passed. -/
def powKLoop (degree k : Nat) : List R → Nat → List R → List R
  | [], _, pk => pk
  | c :: p, i, pk =>
    let ik := i * k % degree
    let sign : R := if (i * k / degree) % 2 = 0 then 1 else -1
    powKLoop degree k p (i + 1) (pk.set ik (c * sign))

/-- sunscreen_tfhe/src/ops/polynomial/mod.rs:62-87 `polynomial_pow_k`: writes `P(X^k)` over the buffer `pk`. -/
def polyPowK (pk p : List R) (k : Nat) : Option (List R) :=
  if p.length = pk.length ∧ isPow2 p.length then some (powKLoop p.length k p 0 pk) else none

end Spf.Tfhe
