import Verif.Model.Poly
/-! Model of the vector kernels and of their run-time dispatch, sunscreen_tfhe/src/math/simd. A result of `none` is a panic,
an illegal instruction or undefined behaviour (an access outside the slice, a misaligned `vmovdqa64`/`vmovapd`, a call to a
`#[target_feature]` function on a CPU that lacks the feature). Floating point values are elements of a ring: rounding is not
modelled. -/
namespace Spf.Simd
open Spf.Tfhe

/-- What the CPU offers (sunscreen_tfhe/src/math/simd/x86_64/mod.rs:14-50 `avx_512_available`, `avx2_available`, `fma_available`). The
`AVX512DQ` feature is never queried. -/
structure Features where
  avx512f : Bool
  avx512dq : Bool
  avx2 : Bool
  fma : Bool

/-- The platform a build runs on: x86-64 with some features (sunscreen_tfhe/src/math/simd/x86_64), or anything else (sunscreen_tfhe/src/math/simd/generic);
`checks` says whether the build has overflow checks (the `dev` and `test` profiles do, the `release` profile does not). -/
structure Platform where
  x86 : Option Features
  checks : Bool

/-- The loops `for (c, (a, b)) in c.iter_mut().zip(a.zip(b))`: stops at the shortest slice, the rest of `c` is unchanged;
`none` as soon as one element panics. -/
def zip3 {α β γ : Type} (f : α → β → γ → Option α) : List α → List β → List γ → Option (List α)
  | c :: cs, a :: as, b :: bs =>
    match f c a b, zip3 f cs as bs with
    | some x, some xs => some (x :: xs)
    | _, _ => none
  | cs, _, _ => some cs

/-- The loops `for (c, a) in c.iter_mut().zip(a)`. -/
def zip2 {α β : Type} (f : α → β → Option α) : List α → List β → Option (List α)
  | c :: cs, a :: as =>
    match f c a, zip2 f cs as with
    | some x, some xs => some (x :: xs)
    | _, _ => none
  | cs, _ => some cs

/-- A Rust `a + b` on `u64`. -/
def plainAdd (checks : Bool) (a b : BitVec 64) : Option (BitVec 64) :=
  if checks ∧ 2 ^ 64 ≤ a.toNat + b.toNat then none else some (a + b)

/-- A Rust `a - b` on `u64`. -/
def plainSub (checks : Bool) (a b : BitVec 64) : Option (BitVec 64) :=
  if checks ∧ a.toNat < b.toNat then none else some (a - b)

/-- A Rust `a * b` on `u64`. -/
def plainMul (checks : Bool) (a b : BitVec 64) : Option (BitVec 64) :=
  if checks ∧ 2 ^ 64 ≤ a.toNat * b.toNat then none else some (a * b)

/-- sunscreen_tfhe/src/math/simd/scalar.rs:37-42 `vector_add` (`wrapping_add`). -/
def scalarAdd (c a b : List (BitVec 64)) : Option (List (BitVec 64)) := zip3 (fun _ a b => some (a + b)) c a b

/-- sunscreen_tfhe/src/math/simd/scalar.rs:44-49 `vector_sub` (`wrapping_sub`). -/
def scalarSub (c a b : List (BitVec 64)) : Option (List (BitVec 64)) := zip3 (fun _ a b => some (a - b)) c a b

/-- sunscreen_tfhe/src/math/simd/x86_64/avx2.rs:40-46 `vector_add_u64` (a plain `+`), called from mod.rs:141-147. -/
def avx2Add (ft : Features) (checks : Bool) (c a b : List (BitVec 64)) : Option (List (BitVec 64)) :=
  if ft.avx2 ∧ ft.fma then zip3 (fun _ a b => plainAdd checks a b) c a b else none

/-- sunscreen_tfhe/src/math/simd/x86_64/avx2.rs:48-54 `vector_sub_u64` (a plain `-`); the function enables `avx2,fma`. -/
def avx2Sub (ft : Features) (checks : Bool) (c a b : List (BitVec 64)) : Option (List (BitVec 64)) :=
  if ft.avx2 ∧ ft.fma then zip3 (fun _ a b => plainSub checks a b) c a b else none

/-- sunscreen_tfhe/src/math/simd/x86_64/mod.rs:141-147 and generic/mod.rs:52-55, `<u64 as VectorOps>::vector_add`. -/
def vectorAdd (p : Platform) (c a b : List (BitVec 64)) : Option (List (BitVec 64)) :=
  match p.x86 with
  | none => scalarAdd c a b
  | some ft => if ft.fma ∧ ft.avx2 then avx2Add ft p.checks c a b else scalarAdd c a b

/-- sunscreen_tfhe/src/math/simd/x86_64/mod.rs:149-155 and generic/mod.rs:57-59, `<u64 as VectorOps>::vector_sub`. On x86-64 the fallback is
`scalar::vector_add`, as in the source. -/
def vectorSub (p : Platform) (c a b : List (BitVec 64)) : Option (List (BitVec 64)) :=
  match p.x86 with
  | none => scalarSub c a b
  | some ft => if ft.avx2 then avx2Sub ft p.checks c a b else scalarAdd c a b

/-- sunscreen_tfhe/src/math/simd/scalar.rs:121-131 `vector_scalar_mad` at `u64`: `num`'s `MulAdd` for integers is `self * a + b`, with plain
operators. -/
def scalarScalarMad (checks : Bool) (c a : List (BitVec 64)) (s : BitVec 64) : Option (List (BitVec 64)) :=
  zip2 (fun c a => (plainMul checks a s).bind fun m => plainAdd checks m c) c a

/-- A slice: its address in units of eight bytes, and its contents. -/
structure Slice (α : Type) where
  addr : Nat
  data : List α

/-- An aligned 512-bit load (`vmovdqa64`, `vmovapd`) of the eight words from index `i`. -/
def load8 {α : Type} (s : Slice α) (i : Nat) : Option (List α) :=
  if (s.addr + i) % 8 = 0 ∧ i + 8 ≤ s.data.length then some ((s.data.drop i).take 8) else none

/-- An aligned 512-bit store of the eight words `v` from index `i`. -/
def store8 {α : Type} (s : Slice α) (i : Nat) (v : List α) : Option (Slice α) :=
  if (s.addr + i) % 8 = 0 ∧ i + 8 ≤ s.data.length then some { s with data := s.data.take i ++ v ++ s.data.drop (i + 8) } else none

/-- sunscreen_tfhe/src/math/simd/x86_64/avx512.rs:99-128, the body of the loop of `vector_scalar_mad`: `vpmullq`, `vpaddq` lane by lane on two
registers. -/
def scalarMadBody (a : Slice (BitVec 64)) (s : BitVec 64) (c : Slice (BitVec 64)) (i : Nat) : Option (Slice (BitVec 64)) := do
  let z0 ← load8 a i
  let z1 ← load8 a (i + 8)
  let z2 ← load8 c i
  let z3 ← load8 c (i + 8)
  let z4 := z0.map (· * s)
  let z5 := z1.map (· * s)
  let c ← store8 c i (List.zipWith (· + ·) z2 z4)
  store8 c (i + 8) (List.zipWith (· + ·) z3 z5)

/-- sunscreen_tfhe/src/math/simd/x86_64/avx512.rs:97-133, the loop `while i < c.len() { ..; i += 16 }`; the fuel is `c.len()`, which is enough
because `i` grows. -/
def scalarMadLoop (a : Slice (BitVec 64)) (s : BitVec 64) : Nat → Nat → Slice (BitVec 64) → Option (Slice (BitVec 64))
  | 0, _, c => some c
  | fuel + 1, i, c =>
    if i < c.data.length then (scalarMadBody a s c i).bind (scalarMadLoop a s fuel (i + 16)) else some c

/-- sunscreen_tfhe/src/math/simd/x86_64/avx512.rs:80-134 `vector_scalar_mad`. `vpmullq` on 512-bit registers belongs to `AVX512DQ`: executing
it on a CPU with `AVX512F` alone is an illegal instruction. -/
def avx512ScalarMad (ft : Features) (c a : Slice (BitVec 64)) (s : BitVec 64) : Option (List (BitVec 64)) :=
  if c.data.length = 0 then some c.data
  else if ft.avx512dq then (scalarMadLoop a s c.data.length 0 c).map (·.data) else none

/-- sunscreen_tfhe/src/math/simd/x86_64/mod.rs:175-182 and generic/mod.rs:70-72, `<u64 as VectorOps>::vector_scalar_mad`. -/
def vectorScalarMad (p : Platform) (c a : Slice (BitVec 64)) (s : BitVec 64) : Option (List (BitVec 64)) :=
  match p.x86 with
  | none => scalarScalarMad p.checks c.data a.data s
  | some ft => if ft.avx512f then avx512ScalarMad ft c a s else scalarScalarMad p.checks c.data a.data s

/-- sunscreen_tfhe/src/math/polynomial.rs:77-85 `polynomial_add` over `Torus<u64>` (which casts to `u64`). -/
def polynomialAdd (p : Platform) (c a b : List (BitVec 64)) : Option (List (BitVec 64)) :=
  if c.length = a.length ∧ c.length = b.length then vectorAdd p c a b else none

/-- sunscreen_tfhe/src/math/polynomial.rs:103-111 `polynomial_sub` over `Torus<u64>`. -/
def polynomialSub (p : Platform) (c a b : List (BitVec 64)) : Option (List (BitVec 64)) :=
  if c.length = a.length ∧ c.length = b.length then vectorSub p c a b else none

/-- sunscreen_tfhe/src/math/polynomial.rs:68-73 `polynomial_small_scalar_mad` over `Torus<u64>`: no check of the lengths. -/
def polynomialSmallScalarMad (p : Platform) (c a : Slice (BitVec 64)) (s : BitVec 64) : Option (List (BitVec 64)) :=
  vectorScalarMad p c a s

section Complex
variable {R : Type} [CommRing R]

/-- A complex number: real part, imaginary part (`num::Complex`, `repr(C)`). -/
abbrev Cx (R : Type) := R × R

/-- `c + a * b` on complex numbers, `num::Complex`'s `Mul` and `AddAssign`. -/
def cxMad (c a b : Cx R) : Cx R := (c.1 + (a.1 * b.1 - a.2 * b.2), c.2 + (a.1 * b.2 + a.2 * b.1))

/-- sunscreen_tfhe/src/math/simd/scalar.rs:12-16 and x86_64/avx2.rs:10-16 `complex_mad`. -/
def scalarComplexMad (c a b : List (Cx R)) : Option (List (Cx R)) := zip3 (fun c a b => some (cxMad c a b)) c a b

/-- The slice of complex numbers seen as a slice of `f64` (avx512.rs:22-27). -/
def flat : List (Cx R) → List R
  | [] => []
  | z :: l => z.1 :: z.2 :: flat l

/-- A slice of `f64` of even length seen as a slice of complex numbers. -/
def unflat : List R → List (Cx R)
  | x :: y :: l => (x, y) :: unflat l
  | _ => []

/-- `vshufpd zmm, x, y, imm`: in each 128-bit lane the low word is a word of `x` and the high word a word of `y`, chosen by
two bits of `imm`; `hi` stands for the two immediates used, `$0` (`false`) and `$255` (`true`). -/
def vshufpd (hi : Bool) : List R → List R → List R
  | x0 :: x1 :: x, y0 :: y1 :: y => (if hi then x1 else x0) :: (if hi then y1 else y0) :: vshufpd hi x y
  | _, _ => []

/-- `vfmadd231pd acc, x, y`: `acc += x * y` lane by lane. -/
def vfmadd (acc x y : List R) : List R := List.zipWith (· + ·) acc (List.zipWith (· * ·) x y)
/-- `vfnmadd231pd acc, x, y`: `acc -= x * y` lane by lane. -/
def vfnmadd (acc x y : List R) : List R := List.zipWith (· - ·) acc (List.zipWith (· * ·) x y)

/-- sunscreen_tfhe/src/math/simd/x86_64/avx512.rs:38-72, the body of the loop of `complex_mad_avx_512_unchecked`, register by register. -/
def complexMadBody (a b : Slice R) (c : Slice R) (i : Nat) : Option (Slice R) := do
  let z0 ← load8 a i
  let z1 ← load8 a (i + 8)
  let z2 := vshufpd false z0 z1
  let z3 := vshufpd true z0 z1
  let z0 ← load8 b i
  let z1 ← load8 b (i + 8)
  let z4 := vshufpd false z0 z1
  let z5 := vshufpd true z0 z1
  let z0 ← load8 c i
  let z1 ← load8 c (i + 8)
  let z6 := vshufpd false z0 z1
  let z7 := vshufpd true z0 z1
  let z6 := vfmadd z6 z2 z4
  let z7 := vfmadd z7 z2 z5
  let z6 := vfnmadd z6 z3 z5
  let z7 := vfmadd z7 z3 z4
  let z0 := vshufpd false z6 z7
  let z1 := vshufpd true z6 z7
  let c ← store8 c i z0
  store8 c (i + 8) z1

/-- sunscreen_tfhe/src/math/simd/x86_64/avx512.rs:30-76, the loop `while i < 2 * c.len() { ..; i += 16 }`. -/
def complexMadLoop (a b : Slice R) : Nat → Nat → Slice R → Option (Slice R)
  | 0, _, c => some c
  | fuel + 1, i, c =>
    if i < c.data.length then (complexMadBody a b c i).bind (complexMadLoop a b fuel (i + 16)) else some c

/-- sunscreen_tfhe/src/math/simd/x86_64/avx512.rs:14-77 `complex_mad_avx_512_unchecked`. -/
def avx512ComplexMad (c a b : Slice (Cx R)) : Option (List (Cx R)) :=
  (complexMadLoop ⟨a.addr, flat a.data⟩ ⟨b.addr, flat b.data⟩ (flat c.data).length 0 ⟨c.addr, flat c.data⟩).map fun s => unflat s.data

/-- sunscreen_tfhe/src/math/simd/x86_64/mod.rs:53-76 and generic/mod.rs:122-124 `complex_mad`, behind
sunscreen_tfhe/src/entities/polynomial_fft.rs:105-111 `multiply_add`. -/
def complexMad (p : Platform) (c a b : Slice (Cx R)) : Option (List (Cx R)) :=
  match p.x86 with
  | none => scalarComplexMad c.data a.data b.data
  | some ft =>
    if c.addr % 8 = 0 ∧ b.addr % 8 = 0 ∧ a.addr % 8 = 0 ∧ c.data.length = a.data.length ∧ b.data.length = a.data.length ∧
        a.data.length % 8 = 0 then
      if ft.avx512f then avx512ComplexMad c a b else scalarComplexMad c.data a.data b.data
    else none

end Complex
end Spf.Simd
