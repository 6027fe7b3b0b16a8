import Mathlib.Data.BitVec
/-! Model of the sampling of `sunscreen_tfhe/src/rand.rs` and of the generation of secret keys. The outcomes of the random generator (`thread_rng().next_u64()`, numbers below `2 ^ 64`)
are arguments. -/
namespace Spf.Tfhe

/-- sunscreen_tfhe/src/math/torus.rs:113-130 `FromU64::from_u64`: `u32` keeps the low 32 bits, `u64` all of them. -/
def fromU64 (V : Nat) (x : Nat) : BitVec V := BitVec.ofNat V (x % 2 ^ V)

/-- sunscreen_tfhe/src/rand.rs:33-35 `uniform_torus`. -/
def uniformTorus (V : Nat) (x : Nat) : BitVec V := fromU64 V x

/-- sunscreen_tfhe/src/rand.rs:38-40 `binary`. -/
def binaryTorus (V : Nat) (x : Nat) : BitVec V := fromU64 V (x % 2)

/-- The float-to-integer cast `as i64` of an integral value: saturating (sunscreen_tfhe/src/rand.rs:26). -/
def castI64 (z : Int) : Int := if z < -2 ^ 63 then -2 ^ 63 else if 2 ^ 63 - 1 < z then 2 ^ 63 - 1 else z

/-- sunscreen_tfhe/src/rand.rs:20-30 `normal_torus`; `z` is `f64::round(e_0 * q)`, the sample scaled to the modulus and rounded. -/
def normalTorus (V : Nat) (z : Int) : BitVec V := fromU64 V (BitVec.ofInt 64 (castI64 z)).toNat

/-- sunscreen_tfhe/src/entities/lwe_secret_key.rs:37-45 and glwe_secret_key.rs:52-62 `generate`: `len` elements, one draw each; also
`binary_torus_polynomial`, `normal_torus_polynomial` (rand.rs:43-55). -/
def generateKey {α β : Type} (gen : α → β) (len : Nat) (draws : Fin len → α) : List β := List.ofFn fun i => gen (draws i)

/-- sunscreen_tfhe/src/entities/lwe_secret_key.rs:48-50 `generate_binary`. -/
def lweKeyBinary (V n : Nat) (draws : Fin n → Fin (2 ^ 64)) : List (BitVec V) := generateKey (fun x : Fin (2 ^ 64) => binaryTorus V x) n draws

/-- sunscreen_tfhe/src/entities/lwe_secret_key.rs:57-59 `generate_uniform`. -/
def lweKeyUniform (V n : Nat) (draws : Fin n → Fin (2 ^ 64)) : List (BitVec V) := generateKey (fun x : Fin (2 ^ 64) => uniformTorus V x) n draws

/-- The polynomials of a flat slice (`PolynomialIterator`, sunscreen_tfhe/src/entities/glwe_secret_key.rs:83-85 `s`): consecutive chunks of `N`. -/
def polysOf {α : Type} (N k : Nat) (data : List α) : List (List α) := (List.range k).map fun i => (data.drop (i * N)).take N

/-- parasol_runtime/src/crypto/keys.rs:126-131 `SecretKey::generate`: a binary LWE key of dimension `n` and a binary GLWE key of `k` polynomials of `N` coefficients. -/
def secretKeyGenerate (V n k N : Nat) (d0 : Fin n → Fin (2 ^ 64)) (d1 : Fin (N * k) → Fin (2 ^ 64)) : List (BitVec V) × List (List (BitVec V)) :=
  (lweKeyBinary V n d0, polysOf N k (lweKeyBinary V (N * k) d1))

end Spf.Tfhe
